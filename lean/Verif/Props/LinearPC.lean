import Verif.Props.FisherZ
import Verif.Proofs.LinearModel
import Verif.Props.PCComplete

/-!
# C77: PC with Fisher's z test on data of a linear structural equation model
-/
open Finset Spec
namespace CL.FisherZ
variable {N n : Nat}

/-- The columns `0 … n-1`. -/
def cols (n : Nat) (data : Fin N → Nat → ℝ) : Fin N → Fin n → ℝ := fun k i => data k i

/-- Column numbers of a set of variables. -/
def nums (S : Finset (Fin n)) : Finset Nat := S.map Fin.valEmbedding

theorem fit_cols {data : Fin N → Nat → ℝ} {x : Fin n} {S : Finset (Fin n)} {u : Fin N → ℝ} : Fit (cols n data) x S u ↔ Fit data x (nums S) u := by
  constructor
  · rintro ⟨b0, b, h⟩
    refine ⟨b0, fun t => if ht : t < n then b ⟨t, ht⟩ else 0, fun k => ?_⟩
    rw [h, nums, sum_map]
    simp [cols]
  · rintro ⟨b0, b, h⟩
    refine ⟨b0, fun t => b t, fun k => ?_⟩
    rw [h, nums, sum_map]
    simp [cols]

theorem residual_cols {data : Fin N → Nat → ℝ} {x : Fin n} {S : Finset (Fin n)} {u : Fin N → ℝ} :
    Residual (cols n data) x S u ↔ Residual data x (nums S) u := by
  unfold Residual
  simp only [fit_cols]

theorem partialCorr_cols {data : Fin N → Nat → ℝ} {x y : Fin n} {S : Finset (Fin n)} {ρ : ℝ} :
    PartialCorr (cols n data) x y S ρ ↔ PartialCorr data x y (nums S) ρ := by
  unfold PartialCorr
  simp only [residual_cols]

theorem nums_list (S : List (Fin n)) : (S.map Fin.val).toFinset = nums S.toFinset := by
  ext t
  simp [nums]

theorem independent_cols {D : Fin n → Fin n → Prop} (hac : Acyclic D) {data : Fin N → Nat → ℝ} (hm : LinearModel D (cols n data)) (W : Finset (Fin n)) :
    Independent data (nums W) := by
  rintro c ⟨c0, hc⟩ t ht
  have := hm.independent hac (fun i => if i ∈ W then c i else 0) c0 fun k => by
    rw [← hc k, nums, sum_map]
    simp [cols, sum_ite_mem]
  obtain ⟨i, hi, rfl⟩ := mem_map.1 ht
  simpa [hi] using this i

/-- Every query on different columns outside the conditioning set is answered, with the p-value of the partial correlation. -/
theorem linear_answers {D : Fin n → Fin n → Prop} (hac : Acyclic D) {data : Fin N → Nat → ℝ} (hm : LinearModel D (cols n data)) (Φ : ℝ → ℝ) (eps : ℝ)
    {x y : Fin n} (hxy : x ≠ y) {S : List (Fin n)} (hx : x ∉ S) (hy : y ∉ S) (hS : S.toFinset.card + 3 ≤ N) :
    ∃ ρ, PartialCorr (cols n data) x y S.toFinset ρ ∧ |ρ| < 1 ∧
      fisherz Φ eps data x y (S.map Fin.val) = some (fisherP Φ N S.toFinset.card ρ) := by
  have hcard : (nums S.toFinset).card = S.toFinset.card := card_map _
  have hv : (x : Nat) ≠ y := fun e => hxy (Fin.ext e)
  have hset : insert (x : Nat) (insert (y : Nat) (nums S.toFinset)) = nums (insert x (insert y S.toFinset)) := by
    ext t; simp [nums]
  have hind := independent_cols hac hm (insert x (insert y S.toFinset))
  have hnd : ((x : Nat) :: (y : Nat) :: (sortedSet (S.map Fin.val))).Nodup := by
    rw [List.nodup_cons, List.nodup_cons, List.mem_cons, mem_sortedSet, mem_sortedSet]
    simp [hv, hx, hy, Fin.val_inj, sortedSet_nodup]
  have hfin : ((x : Nat) :: (y : Nat) :: (sortedSet (S.map Fin.val))).toFinset = nums (insert x (insert y S.toFinset)) := by
    rw [List.toFinset_cons, List.toFinset_cons, sortedSet_toFinset, nums_list, hset]
  have hdet := Independent.det_ne (data := data) (by omega) hnd (by rw [hfin]; exact hind)
  obtain ⟨ρ, h1, h2, -⟩ := partial_corr_of_inv (data := data) (by omega) hnd hdet
  rw [sortedSet_toFinset, nums_list] at h1
  refine ⟨ρ, partialCorr_cols.2 h1, h2, (C76_fisherz Φ eps data hv _ _).2 ⟨?_, ?_, ?_, ?_, ρ, ?_, h2, ?_⟩⟩
  · simp [hx, Fin.val_inj]
  · simp [hy, Fin.val_inj]
  · rw [nums_list, hcard]; exact hS
  · rw [nums_list, hset]; exact hind
  · rw [nums_list]; exact h1
  · rw [nums_list, hcard]

/-- **C77.** On data of a linear structural equation model over the DAG `D` whose errors are uncorrelated in the sample, the p-value of two
variables that are d-separated by `S` is exactly 1. -/
theorem C77_dsep_pvalue {D : Fin n → Fin n → Prop} (hac : Acyclic D) {data : Fin N → Nat → ℝ} (hm : LinearModel D (cols n data)) {Φ : ℝ → ℝ}
    (h0 : Φ 0 = 1 / 2) (eps : ℝ) {x y : Fin n} (hxy : x ≠ y) {S : List (Fin n)} (hx : x ∉ S) (hy : y ∉ S)
    (hS : S.toFinset.card + 3 ≤ N) (hsep : DSep D {z | z ∈ S} x y) : fisherz Φ eps data x y (S.map Fin.val) = some 1 := by
  obtain ⟨ρ, h1, -, h3⟩ := linear_answers hac hm Φ eps hxy hx hy hS
  rw [h3]
  obtain ⟨u, v, hu, hv, -, -, rfl⟩ := h1
  have hz : ((S.toFinset : Finset (Fin n)) : Set (Fin n)) = {z | z ∈ S} := by ext z; simp
  rw [hm.dsep_orth hac (by simpa using hx) (by simpa using hy) (by rw [hz]; exact hsep) hu hv, zero_div, fisherP_eq, zAbs_zero, mul_zero, h0]
  norm_num

/-- The CI test that PC calls. -/
noncomputable def pcTest (n : Nat) (Φ : ℝ → ℝ) (eps : ℝ) (data : Fin N → Nat → ℝ) (α : ℝ) : TestFn n ℝ :=
  ⟨fun x y S => (fisherz Φ eps data x y (S.map Fin.val)).getD 0, α⟩

/-- No accidental cancellation: d-connected variables have a non-zero partial correlation. -/
def FaithfulData (D : Fin n → Fin n → Prop) (data : Fin N → Fin n → ℝ) : Prop :=
  ∀ x y (S : Finset (Fin n)), x ≠ y → x ∉ S → y ∉ S → DConn D S x y → ¬ PartialCorr data x y S 0

/-- A test that rejects at level `α` on all d-connected pairs is a d-separation oracle. -/
theorem linear_oracle {D : Fin n → Fin n → Prop} (hac : Acyclic D) {data : Fin N → Nat → ℝ} (hm : LinearModel D (cols n data)) {Φ : ℝ → ℝ}
    (h0 : Φ 0 = 1 / 2) (eps : ℝ) (hN : n + 1 ≤ N) {α : ℝ} (hα : α < 1)
    (hdep : ∀ x y (S : List (Fin n)), x ≠ y → S.Nodup → x ∉ S → y ∉ S → DConn D {z | z ∈ S} x y → (pcTest n Φ eps data α).pval x y S ≤ α) :
    DSepOracle D (pcTest n Φ eps data α).ind := by
  intro x y S hxy hnd hx hy
  rw [ind_true]
  have hcard : S.toFinset.card + 3 ≤ N := by
    have h1 : (insert x (insert y S.toFinset)).card ≤ n := by simpa using card_le_univ (insert x (insert y S.toFinset))
    rw [card_insert_of_notMem (by simp [hxy, hx]), card_insert_of_notMem (by simp [hy])] at h1
    omega
  constructor
  · intro h hc
    exact absurd (hdep x y S hxy hnd hx hy hc) (not_le.2 h)
  · intro h
    show α < (fisherz Φ eps data x y (S.map Fin.val)).getD 0
    rw [C77_dsep_pvalue hac hm h0 eps hxy hx hy hcard h]
    exact hα

/-- **C77.** PC with Fisher's z test at level `α < 1`, on data of a linear model over `D` in which every d-connected query is rejected at level
`α`, returns the essential graph of `D`, for the collider rules 0, 1, 2, every priority rule and both skeleton modes. -/
theorem C77_pc_fisherz {D : Fin n → Fin n → Prop} (hac : Acyclic D) {data : Fin N → Nat → ℝ} (hm : LinearModel D (cols n data)) {Φ : ℝ → ℝ}
    (h0 : Φ 0 = 1 / 2) (eps : ℝ) (hN : n + 1 ≤ N) {α : ℝ} (hα : α < 1)
    (hdep : ∀ x y (S : List (Fin n)), x ≠ y → S.Nodup → x ∉ S → y ∉ S → DConn D {z | z ∈ S} x y → (pcTest n Φ eps data α).pval x y S ≤ α)
    (stable : Bool) (ucRule : Nat) (hr : ucRule ≤ 2) (prio : Option Nat) :
    ∃ H, pcAlg (pcTest n Φ eps data α) 0 stable ucRule prio Know.none = some H ∧ ∀ a b, (H.g a b = .null ↔ ¬ Adj D a b) ∧
      (H.Arrow a b ↔ Compelled D a b) ∧ ((H.g a b = .tail ∧ H.g b a = .tail) ↔ Adj D a b ∧ ¬ Compelled D a b ∧ ¬ Compelled D b a) :=
  C64_pc_essential_graph D hac _ 0 (linear_oracle hac hm h0 eps hN hα hdep) stable ucRule hr prio

/-- The queries of PC, by their sets. -/
theorem pval_toFinset (Φ : ℝ → ℝ) (eps : ℝ) (data : Fin N → Nat → ℝ) (α : ℝ) (x y : Fin n) (S : List (Fin n)) :
    (pcTest n Φ eps data α).pval x y S = (pcTest n Φ eps data α).pval x y S.toFinset.toList := by
  show (fisherz Φ eps data x y (S.map Fin.val)).getD 0 = (fisherz Φ eps data x y (S.toFinset.toList.map Fin.val)).getD 0
  rw [C76_symmetric Φ eps data x y (s := S.map Fin.val) (s' := S.toFinset.toList.map Fin.val) (by simp), C76_symmetric Φ eps data y x (fun t => Iff.rfl)]

/-- **C77.** Under faithfulness there is a level below 1 from which on PC is right: for linear, faithful data with uncorrelated errors and at least
`n + 2` samples, PC with Fisher's z returns the essential graph of `D` for all levels `α₀ ≤ α < 1`. -/
theorem C77_pc_faithful {D : Fin n → Fin n → Prop} (hac : Acyclic D) {data : Fin N → Nat → ℝ} (hm : LinearModel D (cols n data))
    (hf : FaithfulData D (cols n data)) {Φ : ℝ → ℝ} (h0 : Φ 0 = 1 / 2) (hΦ : StrictMono Φ) (eps : ℝ) (hN : n + 2 ≤ N) :
    ∃ α0 < 1, ∀ α, α0 ≤ α → α < 1 → ∀ (stable : Bool) (ucRule : Nat), ucRule ≤ 2 → ∀ prio : Option Nat,
      ∃ H, pcAlg (pcTest n Φ eps data α) 0 stable ucRule prio Know.none = some H ∧ ∀ a b, (H.g a b = .null ↔ ¬ Adj D a b) ∧
        (H.Arrow a b ↔ Compelled D a b) ∧ ((H.g a b = .tail ∧ H.g b a = .tail) ↔ Adj D a b ∧ ¬ Compelled D a b ∧ ¬ Compelled D b a) := by
  classical
  let pv : Fin n × Fin n × Finset (Fin n) → ℝ := fun q => (pcTest n Φ eps data 0).pval q.1 q.2.1 q.2.2.toList
  let Q : Finset (Fin n × Fin n × Finset (Fin n)) := univ.filter fun q => pv q < 1
  have hlt : ∀ x y (S : List (Fin n)), x ≠ y → S.Nodup → x ∉ S → y ∉ S → DConn D {z | z ∈ S} x y → pv (x, y, S.toFinset) < 1 := by
    intro x y S hxy hnd hx hy hc
    have hcard : S.toFinset.card + 3 < N := by
      have h1 : (insert x (insert y S.toFinset)).card ≤ n := by simpa using card_le_univ (insert x (insert y S.toFinset))
      rw [card_insert_of_notMem (by simp [hxy, hx]), card_insert_of_notMem (by simp [hy])] at h1
      omega
    have hz : ((S.toFinset : Finset (Fin n)) : Set (Fin n)) = {z | z ∈ S} := by ext z; simp
    obtain ⟨ρ, h1, h2, h3⟩ := linear_answers hac hm Φ eps hxy hx hy hcard.le
    have hne : ρ ≠ 0 := fun e => hf x y S.toFinset hxy (by simpa using hx) (by simpa using hy) (by rw [hz]; exact hc) (e ▸ h1)
    show (pcTest n Φ eps data 0).pval x y S.toFinset.toList < 1
    rw [← pval_toFinset]
    show (fisherz Φ eps data x y (S.map Fin.val)).getD 0 < 1
    rw [h3, Option.getD_some, ← (C76_one_iff hΦ h0 hcard (ρ := 0) (by simp)).2 rfl]
    exact (C76_order hΦ hcard (by simp) h2).2 (by simpa using hne)
  have hfin : ∃ α0 < 1, ∀ q ∈ Q, pv q ≤ α0 := by
    rcases Q.eq_empty_or_nonempty with h | h
    · exact ⟨0, by norm_num, by simp [h]⟩
    · obtain ⟨q, hq, hmax⟩ := exists_max_image Q pv h
      exact ⟨pv q, (mem_filter.1 hq).2, hmax⟩
  obtain ⟨α0, h1, h2⟩ := hfin
  refine ⟨α0, h1, fun α ha hb stable ucRule hr prio => ?_⟩
  refine C77_pc_fisherz hac hm h0 eps (by omega) hb (fun x y S hxy hnd hx hy hc => ?_) stable ucRule hr prio
  have h3 : (pcTest n Φ eps data α).pval x y S = pv (x, y, S.toFinset) := pval_toFinset Φ eps data α x y S
  rw [h3]
  exact (h2 _ (mem_filter.2 ⟨mem_univ _, hlt x y S hxy hnd hx hy hc⟩)).trans ha

/-! ### An example: the collider `0 → 2 ← 1` with eight samples -/

/-- `0 → 2 ← 1`. -/
def exD (a b : Fin 3) : Prop := a ≠ 2 ∧ b = 2

/-- Orthogonal errors. -/
def exErr : Fin 3 → Fin 8 → ℝ := ![![1, 1, 1, 1, -1, -1, -1, -1], ![1, 1, -1, -1, 1, 1, -1, -1], ![1, -1, 1, -1, 1, -1, 1, -1]]

/-- `x₂ = x₀ + x₁ + e₂`. -/
def exLin : Fin 8 → Nat → ℝ := fun k t => if t = 0 then exErr 0 k else if t = 1 then exErr 1 k else exErr 0 k + exErr 1 k + exErr 2 k

theorem exD_acyclic : Acyclic exD := by
  intro x hx
  have h : ∀ a b, Relation.TransGen exD a b → a ≠ 2 ∧ b = 2 := by
    intro a b hab
    induction hab with
    | single h => exact h
    | tail _ h ih => exact ⟨ih.1, h.2⟩
  exact (h x x hx).1 (h x x hx).2

theorem exLin_model : LinearModel exD (cols 3 exLin) := by
  refine ⟨fun _ => 0, fun p i => if p ≠ 2 ∧ i = 2 then 1 else 0, exErr, ?_, ?_, ?_, ?_, ?_⟩
  · intro p i h
    exact if_neg h
  · intro k i
    fin_cases i <;> simp [Fin.sum_univ_succ, cols, exLin]
  · intro i
    fin_cases i <;> simp [Fin.sum_univ_succ, exErr] <;> norm_num
  · intro i
    fin_cases i <;> simp [Fin.sum_univ_succ, exErr] <;> norm_num
  · intro i j hij
    fin_cases i <;> fin_cases j <;> first | exact absurd rfl hij | (simp [Fin.sum_univ_succ, exErr] <;> norm_num)

theorem not_zero {x y : Fin 3} {S : Finset (Fin 3)} {u v : Fin 8 → ℝ} (hu : Residual (cols 3 exLin) x S u) (hv : Residual (cols 3 exLin) y S v)
    (hne : ∑ k, u k * v k ≠ 0) : ¬ PartialCorr (cols 3 exLin) x y S 0 := by
  rintro ⟨u', v', hu', hv', h1, h2, h3⟩
  obtain rfl := hu.unique hu'
  obtain rfl := hv.unique hv'
  have : √((∑ k, u k ^ 2) * ∑ k, v k ^ 2) ≠ 0 := (Real.sqrt_pos.2 (mul_pos h1 h2)).ne'
  exact hne ((div_eq_zero_iff.1 h3.symm).resolve_right this)

/-- Column minus a multiple of another column. -/
theorem ex_residual (x s : Fin 3) (c : ℝ) (h0 : ∑ k, (cols 3 exLin k x - c * cols 3 exLin k s) = 0)
    (h1 : ∑ k, (cols 3 exLin k x - c * cols 3 exLin k s) * cols 3 exLin k s = 0) :
    Residual (cols 3 exLin) x {s} fun k => cols 3 exLin k x - c * cols 3 exLin k s :=
  residual_of_orth ⟨0, fun _ => c, fun k => by simp⟩ h0 (by simpa using h1)

theorem ex_residual_empty (x : Fin 3) (h0 : ∑ k, cols 3 exLin k x = 0) : Residual (cols 3 exLin) x ∅ fun k => cols 3 exLin k x :=
  residual_of_orth ⟨0, fun _ => 0, fun k => by simp⟩ h0 (by simp)

theorem exLin_faithful : FaithfulData exD (cols 3 exLin) := by
  have key : ∀ x y (S : Finset (Fin 3)), x < y → x ∉ S → y ∉ S → DConn exD S x y → ¬ PartialCorr (cols 3 exLin) x y S 0 := by
    intro x y S hxy hx hy hc
    have h01 : DSep exD ((∅ : Finset (Fin 3)) : Set (Fin 3)) 0 1 := by
      have h := local_markov exD_acyclic (x := 0) (y := 1) (by decide) (by simp [Adj, exD]) (by
        intro h
        have : ∀ a b, Relation.TransGen exD a b → b = 2 := by
          intro a b hab
          induction hab with
          | single h => exact h.2
          | tail _ h _ => exact h.2
        exact absurd (this _ _ h) (by decide))
      have e : {p | exD p 0} = ((∅ : Finset (Fin 3)) : Set (Fin 3)) := by
        ext p
        simp [exD]
      rwa [e] at h
    have hS : S ∈ (univ : Finset (Fin 3)).powerset := by simp
    have hcase : (x = 0 ∧ y = 1 ∧ (S = ∅ ∨ S = {2})) ∨ (x = 0 ∧ y = 2 ∧ (S = ∅ ∨ S = {1})) ∨ (x = 1 ∧ y = 2 ∧ (S = ∅ ∨ S = {0})) := by
      clear hc h01 hS
      revert x y S
      decide
    rcases hcase with ⟨rfl, rfl, rfl | rfl⟩ | ⟨rfl, rfl, rfl | rfl⟩ | ⟨rfl, rfl, rfl | rfl⟩
    · exact absurd hc h01
    · refine not_zero (ex_residual 0 2 (1 / 3) ?_ ?_) (ex_residual 1 2 (1 / 3) ?_ ?_) ?_ <;>
        simp [Fin.sum_univ_succ, cols, exLin, exErr] <;> norm_num
    · refine not_zero (ex_residual_empty 0 ?_) (ex_residual_empty 2 ?_) ?_ <;> simp [Fin.sum_univ_succ, cols, exLin, exErr] <;> norm_num
    · refine not_zero (ex_residual 0 1 0 ?_ ?_) (ex_residual 2 1 1 ?_ ?_) ?_ <;> simp [Fin.sum_univ_succ, cols, exLin, exErr] <;> norm_num
    · refine not_zero (ex_residual_empty 1 ?_) (ex_residual_empty 2 ?_) ?_ <;> simp [Fin.sum_univ_succ, cols, exLin, exErr] <;> norm_num
    · refine not_zero (ex_residual 1 0 0 ?_ ?_) (ex_residual 2 0 1 ?_ ?_) ?_ <;> simp [Fin.sum_univ_succ, cols, exLin, exErr] <;> norm_num
  intro x y S hxy hx hy hc hp
  rcases lt_or_gt_of_ne hxy with h | h
  · exact key x y S h hx hy hc hp
  · refine key y x S h hy hx hc.symm ?_
    obtain ⟨u, v, hu, hv, h1, h2, h3⟩ := hp
    refine ⟨v, u, hv, hu, h2, h1, ?_⟩
    rw [mul_comm (∑ k, v k ^ 2)]
    simp only [mul_comm (v _)]
    exact h3

/-- The eight samples meet every hypothesis of `C77_pc_faithful`: for large enough levels PC with Fisher's z orients the collider. -/
theorem C77_example {Φ : ℝ → ℝ} (h0 : Φ 0 = 1 / 2) (hΦ : StrictMono Φ) (eps : ℝ) :
    ∃ α0 < 1, ∀ α, α0 ≤ α → α < 1 → ∃ H, pcAlg (pcTest 3 Φ eps exLin α) 0 true 0 none Know.none = some H ∧ H.g 0 1 = .null ∧
      H.Arrow 0 2 ∧ H.Arrow 1 2 := by
  obtain ⟨α0, h1, h2⟩ := C77_pc_faithful exD_acyclic exLin_model exLin_faithful h0 hΦ eps (by norm_num)
  refine ⟨α0, h1, fun α ha hb => ?_⟩
  obtain ⟨H, h3, h4⟩ := h2 α ha hb true 0 (by norm_num) none
  refine ⟨H, h3, (h4 0 1).1.2 (by simp [Adj, exD]), ?_, ?_⟩
  · rw [(h4 _ _).2.1]
    exact ⟨by simp [exD], fun F _ hF => ((hF.2 0 2 1).1 (by simp [UnshieldedCollider, Collider, Adj, exD])).2.2.1⟩
  · rw [(h4 _ _).2.1]
    exact ⟨by simp [exD], fun F _ hF => ((hF.2 0 2 1).1 (by simp [UnshieldedCollider, Collider, Adj, exD])).2.2.2⟩

end CL.FisherZ
