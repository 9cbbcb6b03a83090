import Verif.Props.DiscretePC
import Verif.Props.McFisherZ
import Verif.Props.LinearPC
import Verif.Props.FciSound
import Verif.Props.CDNOD
import Verif.Props.Iamb

/-!
# C216: FCI, CD-NOD and IAMB on data, with latent variables
-/
open Finset Spec ChiSpec
namespace CL
open Fci
variable {N n m : Nat}

/-- A test whose p-value is 1 for d-separated and smaller than 1 for d-connected observed variables answers d-separation at all levels close to 1. -/
theorem oracle_level {D : Fin m → Fin m → Prop} {o : Fin n → Fin m} (pv : Fin n → Fin n → List (Fin n) → ℝ)
    (hset : ∀ x y (S S' : List (Fin n)), (∀ z, z ∈ S ↔ z ∈ S') → pv x y S = pv x y S')
    (h1 : ∀ x y S, x ≠ y → x ∉ S → y ∉ S → DSep D (o '' {z | z ∈ S}) (o x) (o y) → pv x y S = 1)
    (h2 : ∀ x y S, x ≠ y → x ∉ S → y ∉ S → DConn D (o '' {z | z ∈ S}) (o x) (o y) → pv x y S < 1) :
    ∃ α0 < 1, ∀ α, α0 ≤ α → α < 1 → OracleFor D o ∅ fun x y S => decide (α < pv x y S) := by
  classical
  let Q : Finset (Fin n × Fin n × Finset (Fin n)) := univ.filter fun q => pv q.1 q.2.1 q.2.2.toList < 1
  have hfin : ∃ α0 < 1, ∀ q ∈ Q, pv q.1 q.2.1 q.2.2.toList ≤ α0 := by
    rcases Q.eq_empty_or_nonempty with h | h
    · exact ⟨0, by norm_num, by simp [h]⟩
    · obtain ⟨q, hq, hmax⟩ := exists_max_image Q (fun q => pv q.1 q.2.1 q.2.2.toList) h
      exact ⟨_, (mem_filter.1 hq).2, hmax⟩
  obtain ⟨α0, h3, h4⟩ := hfin
  refine ⟨α0, h3, fun α ha hb x y S hxy hx hy => ?_⟩
  rw [decide_eq_true_iff, Set.union_empty]
  constructor
  · intro h hc
    have h5 := h2 x y S hxy hx hy hc
    rw [hset x y S S.toFinset.toList (by simp)] at h h5
    exact absurd ((h4 (x, y, S.toFinset) (mem_filter.2 ⟨mem_univ _, h5⟩)).trans ha) (not_le.2 h)
  · intro h
    rw [h1 x y S hxy hx hy h]
    exact hb

/-! ### Fisher's z on the observed columns of a linear model -/
namespace FisherZ

/-- The observed columns of a table. -/
def observed (o : Fin n → Fin m) (data : Fin N → Nat → ℝ) : Fin N → Nat → ℝ := fun k t => if h : t < n then data k (o ⟨t, h⟩) else 0

theorem observed_val (o : Fin n → Fin m) (data : Fin N → Nat → ℝ) (k : Fin N) (i : Fin n) : observed o data k i = data k (o i) := by
  simp [observed]

theorem getD_map {l : List (Fin n)} {f : Fin n → Nat} {i : Nat} (h : i < l.length) : (l.map f).getD i 0 = f l[i] := by
  rw [List.getD_eq_getElem _ _ (by simpa using h), List.getElem_map]

/-- Testing observed columns is testing the corresponding columns of the full table. -/
theorem fisherz_observed (Φ : ℝ → ℝ) (eps : ℝ) {o : Fin n → Fin m} (ho : Function.Injective o) (data : Fin N → Nat → ℝ) {x y : Fin n}
    {S : List (Fin n)} (h : (x :: y :: S).Nodup) :
    fisherz Φ eps (observed o data) x y (S.map Fin.val) = fisherz Φ eps data (o x) (o y) (S.map fun v => (o v : Nat)) := by
  have hinj : Function.Injective fun v : Fin n => (o v : Nat) := fun a b e => ho (Fin.ext e)
  have e1 : ((x : Nat) :: (y : Nat) :: S.map Fin.val) = (x :: y :: S).map Fin.val := rfl
  have e2 : ((o x : Nat) :: (o y : Nat) :: S.map fun v => (o v : Nat)) = (x :: y :: S).map fun v => (o v : Nat) := rfl
  rw [fisherz_pvalue Φ eps _ (by rw [e1]; exact h.map Fin.val_injective), fisherz_pvalue Φ eps _ (by rw [e2]; exact h.map hinj)]
  refine pvalue_congr Φ eps N (by simp) _ _ fun i hi j hj => ?_
  rw [e1, e2]
  have hl : (x :: y :: S).length = (S.map Fin.val).length + 2 := by simp
  rw [getD_map (hl ▸ hi), getD_map (hl ▸ hj), getD_map (hl ▸ hi), getD_map (hl ▸ hj)]
  exact corr_congr (fun k => observed_val o data k _) fun k => observed_val o data k _

/-- No accidental cancellation among the observed variables. -/
def FaithfulObserved (D : Fin m → Fin m → Prop) (o : Fin n → Fin m) (data : Fin N → Fin m → ℝ) : Prop :=
  ∀ x y (S : Finset (Fin n)), x ≠ y → x ∉ S → y ∉ S → DConn D (o '' S) (o x) (o y) → ¬ PartialCorr data (o x) (o y) (S.image o) 0

/-- **C216** (Fisher's z). On the observed columns of linear, faithful data with uncorrelated errors the test answers d-separation in the graph with the
latent variables, at all levels from some value below 1 on. -/
theorem C216_fisherz_oracle {D : Fin m → Fin m → Prop} (hac : Acyclic D) {o : Fin n → Fin m} (ho : Function.Injective o) {data : Fin N → Nat → ℝ}
    (hm : LinearModel D (cols m data)) (hf : FaithfulObserved D o (cols m data)) {Φ : ℝ → ℝ} (h0 : Φ 0 = 1 / 2) (hΦ : StrictMono Φ) (eps : ℝ)
    (hN : m + 2 ≤ N) :
    ∃ α0 < 1, ∀ α, α0 ≤ α → α < 1 → CausalOracle D o ∅ (pcTest n Φ eps (observed o data) α).ind := by
  classical
  have key : ∀ x y (S : List (Fin n)), x ≠ y → x ∉ S → y ∉ S →
      fisherz Φ eps (observed o data) x y (S.map Fin.val) = fisherz Φ eps data (o x) (o y) ((S.dedup.map o).map Fin.val) ∧
      o x ≠ o y ∧ o x ∉ S.dedup.map o ∧ o y ∉ S.dedup.map o ∧ (S.dedup.map o).toFinset.card + 3 < N := by
    intro x y S hxy hx hy
    have hnd : (x :: y :: S.dedup).Nodup := by
      rw [List.nodup_cons, List.nodup_cons]
      exact ⟨by simp [hxy, hx], by simpa using hy, List.nodup_dedup S⟩
    have e1 : o x ∉ S.dedup.map o := by simpa [ho.eq_iff] using hx
    have e2 : o y ∉ S.dedup.map o := by simpa [ho.eq_iff] using hy
    refine ⟨?_, fun e => hxy (ho e), e1, e2, ?_⟩
    · rw [C76_symmetric Φ eps _ _ _ (s' := S.dedup.map Fin.val) (by simp), C76_symmetric Φ eps _ _ _ (s' := S.dedup.map Fin.val) (by simp),
        fisherz_observed Φ eps ho data hnd, List.map_map]
      rfl
    · have h1 : (insert (o x) (insert (o y) (S.dedup.map o).toFinset)).card ≤ m := by
        simpa using card_le_univ (insert (o x) (insert (o y) (S.dedup.map o).toFinset))
      rw [card_insert_of_notMem (by simpa [hxy, ho.eq_iff] using hx), card_insert_of_notMem (by simpa [ho.eq_iff] using hy)] at h1
      omega
  have hset : ∀ (S : List (Fin n)), {z | z ∈ S.dedup.map o} = o '' {z | z ∈ S} := by
    intro S; ext z; simp
  suffices h : ∃ α0 < 1, ∀ α, α0 ≤ α → α < 1 →
      OracleFor D o ∅ fun x y S => decide (α < (fisherz Φ eps (observed o data) x y (S.map Fin.val)).getD 0) by
    obtain ⟨α0, h1, h2⟩ := h
    exact ⟨α0, h1, fun α ha hb => ⟨hac, ho, fun i h => h, h2 α ha hb⟩⟩
  refine oracle_level _ ?_ ?_ ?_
  · intro x y S S' h
    rw [C76_symmetric Φ eps _ _ _ (s' := S'.map Fin.val) (by simp [h]), C76_symmetric Φ eps _ _ _ (s' := S'.map Fin.val) (by simp)]
  · intro x y S hxy hx hy hs
    obtain ⟨e, k1, k2, k3, k4⟩ := key x y S hxy hx hy
    show (fisherz Φ eps (observed o data) x y (S.map Fin.val)).getD 0 = 1
    rw [e, C77_dsep_pvalue hac hm h0 eps k1 k2 k3 k4.le (by rw [hset]; exact hs)]
    rfl
  · intro x y S hxy hx hy hc
    obtain ⟨e, k1, k2, k3, k4⟩ := key x y S hxy hx hy
    obtain ⟨ρ, g1, g2, g3⟩ := linear_answers hac hm Φ eps k1 k2 k3 k4.le
    have hne : ρ ≠ 0 := by
      rintro rfl
      refine hf x y S.toFinset hxy (by simpa using hx) (by simpa using hy) ?_ ?_
      · rwa [List.coe_toFinset]
      · have : S.toFinset.image o = (S.dedup.map o).toFinset := by ext z; simp
        rw [this]; exact g1
    show (fisherz Φ eps (observed o data) x y (S.map Fin.val)).getD 0 < 1
    rw [e, g3, Option.getD_some, ← (C76_one_iff hΦ h0 k4 (ρ := 0) (by simp)).2 rfl]
    exact (C76_order hΦ k4 (by simp) g2).2 (by simpa using hne)

/-- With every variable observed. -/
theorem fisherz_oracle_all {D : Fin n → Fin n → Prop} (hac : Acyclic D) {data : Fin N → Nat → ℝ} (hm : LinearModel D (cols n data))
    (hf : FaithfulData D (cols n data)) {Φ : ℝ → ℝ} (h0 : Φ 0 = 1 / 2) (hΦ : StrictMono Φ) (eps : ℝ) (hN : n + 2 ≤ N) :
    ∃ α0 < 1, ∀ α, α0 ≤ α → α < 1 → ∀ x y S, x ≠ y → x ∉ S → y ∉ S → (α < (pcTest n Φ eps data α).pval x y S ↔ DSep D {v | v ∈ S} x y) := by
  obtain ⟨α0, h1, h2⟩ := C216_fisherz_oracle hac Function.injective_id hm
    (fun x y S a b c d => by simpa using hf x y S a b c (by simpa using d)) h0 hΦ eps hN
  refine ⟨α0, h1, fun α ha hb x y S hxy hx hy => ?_⟩
  have h3 := (h2 α ha hb).ind x y S hxy hx hy
  rw [Set.image_id, Set.union_empty] at h3
  unfold TestFn.ind at h3
  rw [decide_eq_true_iff] at h3
  have hnd : (x :: y :: S.dedup).Nodup := by
    rw [List.nodup_cons, List.nodup_cons]
    exact ⟨by simp [hxy, hx], by simpa using hy, List.nodup_dedup S⟩
  have e : (pcTest n Φ eps (observed (id : Fin n → Fin n) data) α).pval x y S = (pcTest n Φ eps data α).pval x y S := by
    show (fisherz Φ eps (observed (id : Fin n → Fin n) data) x y (S.map Fin.val)).getD 0 = (fisherz Φ eps data x y (S.map Fin.val)).getD 0
    have k1 : ∀ d : Fin N → Nat → ℝ, fisherz Φ eps d x y (S.map Fin.val) = fisherz Φ eps d x y (S.dedup.map Fin.val) := by
      intro d
      rw [C76_symmetric Φ eps d x y (s' := S.dedup.map Fin.val) (by simp), C76_symmetric Φ eps d y x (s' := S.dedup.map Fin.val) (by simp)]
    rw [k1, k1, fisherz_observed Φ eps Function.injective_id data hnd]
    rfl
  rw [← e]
  exact h3

end FisherZ

/-! ### The chi-square and G-square tests on the observed columns of a discrete table -/
namespace Chi

theorem count_observed {o : Fin n → Fin m} (data : Fin N → Fin m → Int) (W : Set (Fin n)) (v : Fin m → Int) :
    Discrete.count (fun k i => data k (o i)) W (v ∘ o) = Discrete.count data (o '' W) v := by
  unfold Discrete.count
  exact card_iff fun k => by simp

/-- Independence of observed variables is independence in the full table. -/
theorem condIndep_observed {o : Fin n → Fin m} (ho : Function.Injective o) (data : Fin N → Fin m → Int) (A B C : Set (Fin n)) :
    Discrete.CondIndep (fun k i => data k (o i)) A B C ↔ Discrete.CondIndep data (o '' A) (o '' B) (o '' C) := by
  constructor
  · intro h v
    rw [← Set.image_union, ← Set.image_union, ← Set.image_union, ← Set.image_union, ← count_observed, ← count_observed, ← count_observed,
      ← count_observed]
    exact h (v ∘ o)
  · intro h v
    have e : v = (Function.extend o v 0) ∘ o := (funext fun i => (ho.extend_apply v 0 i).symm)
    rw [e, count_observed, count_observed, count_observed, count_observed, Set.image_union, Set.image_union, Set.image_union, Set.image_union]
    exact h _

/-- The CI test as it is called by the searches: the conditioning set is made a sorted list without repetitions (`cit.py:163`). -/
noncomputable def chiQuery (sf : ℝ → Int → ℝ) (gsq : Bool) (data : Fin N → Fin n → Int) (α : ℝ) : TestFn n ℝ :=
  ⟨fun x y S => (call Real.log sf gsq (column data) x y (S.toFinset.sort (· ≤ ·))).getD 0, α⟩

/-- No accidental independence among the observed variables. -/
def FaithfulObserved (D : Fin m → Fin m → Prop) (o : Fin n → Fin m) (data : Fin N → Fin m → Int) : Prop :=
  ∀ x y (S : Finset (Fin n)), x ≠ y → x ∉ S → y ∉ S → DConn D (o '' S) (o x) (o y) → ¬ Discrete.CondIndep data {o x} {o y} (o '' S)

/-- **C216** (chi-square and G-square). On the observed columns of a faithful Markov table the test answers d-separation in the graph with the latent
variables, at all levels from some value below 1 on. -/
theorem C216_chi_oracle {D : Fin m → Fin m → Prop} (hac : Acyclic D) {o : Fin n → Fin m} (ho : Function.Injective o) {sf : ℝ → Int → ℝ}
    (hsf : Survival sf) (gsq : Bool) {data : Fin N → Fin m → Int} (hM : Discrete.Markov D data) (hf : FaithfulObserved D o data) (hN : 0 < N)
    (hsize : cells (fun k i => data k (o i)) < 2 ^ 63) :
    ∃ α0 < 1, ∀ α, α0 ≤ α → α < 1 → CausalOracle D o ∅ (chiQuery sf gsq (fun k i => data k (o i)) α).ind := by
  classical
  have key : ∀ x y (S : List (Fin n)), x ≠ y → x ∉ S → y ∉ S →
      ∃ p, call Real.log sf gsq (column fun k i => data k (o i)) x y (S.toFinset.sort (· ≤ ·)) = some p ∧
        (Discrete.CondIndep data {o x} {o y} (o '' {z | z ∈ S}) → p = 1) ∧ (¬ Discrete.CondIndep data {o x} {o y} (o '' {z | z ∈ S}) → p < 1) := by
    intro x y S hxy hx hy
    have h := C215_pvalue hsf gsq hN hsize hxy (sort_nodup S.toFinset (· ≤ ·)) (by simpa using hx) (by simpa using hy)
    have e : {z | z ∈ S.toFinset.sort (· ≤ ·)} = {z | z ∈ S} := by ext z; simp
    rw [e, condIndep_observed ho, Set.image_singleton, Set.image_singleton] at h
    exact h
  suffices h : ∃ α0 < 1, ∀ α, α0 ≤ α → α < 1 → OracleFor D o ∅ fun x y S =>
      decide (α < (call Real.log sf gsq (column fun k i => data k (o i)) x y (S.toFinset.sort (· ≤ ·))).getD 0) by
    obtain ⟨α0, h1, h2⟩ := h
    exact ⟨α0, h1, fun α ha hb => ⟨hac, ho, fun i h => h, h2 α ha hb⟩⟩
  refine oracle_level _ ?_ ?_ ?_
  · intro x y S S' h
    have : S.toFinset = S'.toFinset := by ext z; simp [h]
    simp only [this]
  · intro x y S hxy hx hy hs
    obtain ⟨p, e, k1, -⟩ := key x y S hxy hx hy
    simp only [e, Option.getD_some]
    exact k1 (hM.global hac (by simpa [ho.eq_iff] using hx) (by simpa [ho.eq_iff] using hy) hs)
  · intro x y S hxy hx hy hc
    obtain ⟨p, e, -, k2⟩ := key x y S hxy hx hy
    simp only [e, Option.getD_some]
    refine k2 ?_
    have := hf x y S.toFinset hxy (by simpa using hx) (by simpa using hy)
    rw [List.coe_toFinset] at this
    exact this hc

end Chi

/-! ### The searches -/

/-- **C216** (FCI with Fisher's z). No true adjacency is lost: two observed variables that no set of observed variables separates are adjacent. -/
theorem C216_fci_fisherz {D : Fin m → Fin m → Prop} (hac : Acyclic D) {o : Fin n → Fin m} (ho : Function.Injective o) {data : Fin N → Nat → ℝ}
    (hm : LinearModel D (FisherZ.cols m data)) (hf : FisherZ.FaithfulObserved D o (FisherZ.cols m data)) {Φ : ℝ → ℝ} (h0 : Φ 0 = 1 / 2)
    (hΦ : StrictMono Φ) (eps : ℝ) (hN : m + 2 ≤ N) :
    ∃ α0 < 1, ∀ α, α0 ≤ α → α < 1 → ∀ env : FciEnv n, env.Ok → env.ind = (FisherZ.pcTest n Φ eps (FisherZ.observed o data) α).ind →
      (∀ a b, ¬ (env.k.forb a b = true ∧ env.k.forb b a = true)) → ∀ depth : Option Nat,
      ∃ H, fci env depth = some H ∧ ∀ x y, x ≠ y → ¬ Separable D o ∅ x y → H.isAdj x y = true := by
  obtain ⟨α0, h1, h2⟩ := FisherZ.C216_fisherz_oracle hac ho hm hf h0 hΦ eps hN
  exact ⟨α0, h1, fun α ha hb env he hi hk depth => C69_inseparable_adjacent he (hi ▸ h2 α ha hb) hk depth⟩

/-- **C216** (FCI with the chi-square or the G-square test). -/
theorem C216_fci_chi {D : Fin m → Fin m → Prop} (hac : Acyclic D) {o : Fin n → Fin m} (ho : Function.Injective o) {sf : ℝ → Int → ℝ}
    (hsf : Chi.Survival sf) (gsq : Bool) {data : Fin N → Fin m → Int} (hM : Discrete.Markov D data) (hf : Chi.FaithfulObserved D o data) (hN : 0 < N)
    (hsize : Chi.cells (fun k i => data k (o i)) < 2 ^ 63) :
    ∃ α0 < 1, ∀ α, α0 ≤ α → α < 1 → ∀ env : FciEnv n, env.Ok → env.ind = (Chi.chiQuery sf gsq (fun k i => data k (o i)) α).ind →
      (∀ a b, ¬ (env.k.forb a b = true ∧ env.k.forb b a = true)) → ∀ depth : Option Nat,
      ∃ H, fci env depth = some H ∧ ∀ x y, x ≠ y → ¬ Separable D o ∅ x y → H.isAdj x y = true := by
  obtain ⟨α0, h1, h2⟩ := Chi.C216_chi_oracle hac ho hsf gsq hM hf hN hsize
  exact ⟨α0, h1, fun α ha hb env he hi hk depth => C69_inseparable_adjacent he (hi ▸ h2 α ha hb) hk depth⟩

theorem CausalOracle.dsep {D : Fin n → Fin n → Prop} {ind : CI n} (h : CausalOracle D id ∅ ind) : DSepOracle D ind := by
  intro x y S hxy _ hx hy
  have := h.ind x y S hxy hx hy
  simpa using this

/-- **C216** (CD-NOD with the chi-square or the G-square test). The last column is the context; it is a source of the causal graph. The result is
correct and directs every edge at the context away from it. -/
theorem C216_cdnod_chi {D : Fin (n + 1) → Fin (n + 1) → Prop} (hac : Acyclic D) (hroot : ∀ a, ¬ D a (Fin.last n)) {sf : ℝ → Int → ℝ}
    (hsf : Chi.Survival sf) (gsq : Bool) {data : Fin N → Fin (n + 1) → Int} (hM : Discrete.Markov D data) (hf : Chi.FaithfulTable D data) (hN : 0 < N)
    (hsize : Chi.cells data < 2 ^ 63) :
    ∃ α0 < 1, ∀ α, α0 ≤ α → α < 1 → ∀ (stable : Bool) (ucRule : Nat), ucRule ≤ 2 → ∀ (prio : Option Nat) (k : Know (n + 1)),
      ((∀ a b, k.forb a b = true → ¬ D a b) ∧ ∀ a b, k.req a b = true → D a b) →
      ∃ H, cdnodAlg (Chi.chiQuery sf gsq data α) 0 stable ucRule prio k = some H ∧ PCCorrect D H ∧
        ∀ i, H.g (Fin.last n) i ≠ .null → H.Arrow (Fin.last n) i := by
  obtain ⟨α0, h1, h2⟩ := Chi.C216_chi_oracle hac Function.injective_id hsf gsq hM
    (fun x y S a b c d => by simpa using hf x y S a b c (by simpa using d)) hN hsize
  exact ⟨α0, h1, fun α ha hb stable ucRule hr prio k hk =>
    C52_cdnod_correct D hac hroot _ 0 (h2 α ha hb).dsep stable ucRule hr prio k hk⟩

/-- **C216** (CD-NOD with Fisher's z). -/
theorem C216_cdnod_fisherz {D : Fin (n + 1) → Fin (n + 1) → Prop} (hac : Acyclic D) (hroot : ∀ a, ¬ D a (Fin.last n)) {data : Fin N → Nat → ℝ}
    (hm : LinearModel D (FisherZ.cols (n + 1) data)) (hf : FisherZ.FaithfulData D (FisherZ.cols (n + 1) data)) {Φ : ℝ → ℝ} (h0 : Φ 0 = 1 / 2)
    (hΦ : StrictMono Φ) (eps : ℝ) (hN : n + 3 ≤ N) :
    ∃ α0 < 1, ∀ α, α0 ≤ α → α < 1 → ∀ (stable : Bool) (ucRule : Nat), ucRule ≤ 2 → ∀ (prio : Option Nat) (k : Know (n + 1)),
      ((∀ a b, k.forb a b = true → ¬ D a b) ∧ ∀ a b, k.req a b = true → D a b) →
      ∃ H, cdnodAlg (FisherZ.pcTest (n + 1) Φ eps data α) 0 stable ucRule prio k = some H ∧ PCCorrect D H ∧
        ∀ i, H.g (Fin.last n) i ≠ .null → H.Arrow (Fin.last n) i := by
  obtain ⟨α0, h1, h2⟩ := FisherZ.fisherz_oracle_all hac hm hf h0 hΦ eps hN
  refine ⟨α0, h1, fun α ha hb stable ucRule hr prio k hk => C52_cdnod_correct D hac hroot _ 0 (fun x y S hxy _ hx hy => ?_) stable ucRule hr prio k hk⟩
  rw [← h2 α ha hb x y S hxy hx hy]
  unfold TestFn.ind
  rw [decide_eq_true_iff]
  rfl

/-- **C216** (IAMB with Fisher's z). On linear, faithful data with uncorrelated errors IAMB returns the Markov blanket of the target. -/
theorem C216_iamb {D : Fin n → Fin n → Prop} (hac : Acyclic D) {data : Fin N → Nat → ℝ} (hm : LinearModel D (FisherZ.cols n data))
    (hf : FisherZ.FaithfulData D (FisherZ.cols n data)) {Φ : ℝ → ℝ} (h0 : Φ 0 = 1 / 2) (hΦ : StrictMono Φ) (eps : ℝ) (hN : n + 2 ≤ N) :
    ∃ α0 < 1, ∀ α, α0 ≤ α → α < 1 → ∀ t : Fin n, ∃ R,
      (∀ fuel, n < fuel → Iamb.iamb (FisherZ.pcTest n Φ eps data α).pval α t fuel = some R) ∧ R.Nodup ∧
      ∀ x, x ∈ R ↔ MarkovBlanket D t x := by
  obtain ⟨α0, h1, h2⟩ := FisherZ.fisherz_oracle_all hac hm hf h0 hΦ eps hN
  exact ⟨α0, h1, fun α ha hb t => C49_oracle_exact D hac _ α (h2 α ha hb) t⟩

/-! ### Examples -/

/-- The eight samples of C77 without variable 1: variables 0 and 2 stay adjacent. -/
theorem C216_example_fci {Φ : ℝ → ℝ} (h0 : Φ 0 = 1 / 2) (hΦ : StrictMono Φ) (eps : ℝ) :
    ∃ α0 < 1, ∀ α, α0 ≤ α → α < 1 → ∃ H : GG 2,
      fci (exEnv (FisherZ.pcTest 2 Φ eps (FisherZ.observed (![0, 2] : Fin 2 → Fin 3) FisherZ.exLin) α).ind Know.none) none = some H ∧
      H.isAdj 0 1 = true := by
  have ho : Function.Injective (![0, 2] : Fin 2 → Fin 3) := by decide
  obtain ⟨α0, h1, h2⟩ := C216_fci_fisherz FisherZ.exD_acyclic ho FisherZ.exLin_model
    (fun x y S hxy hx hy hc => FisherZ.exLin_faithful _ _ _ (fun e => hxy (ho e)) (by simpa [ho.eq_iff] using hx) (by simpa [ho.eq_iff] using hy)
      (by simpa using hc)) h0 hΦ eps (by norm_num)
  refine ⟨α0, h1, fun α ha hb => ?_⟩
  obtain ⟨H, h3, h4⟩ := h2 α ha hb (exEnv _ Know.none) (exEnv_ok _ _) rfl (by simp [exEnv, Know.none]) none
  refine ⟨H, h3, h4 0 1 (by decide) ?_⟩
  rintro ⟨S, -, -, hS⟩
  exact hS (dConn_of_adj (by decide) (Or.inl ⟨by decide, rfl⟩))

/-- The Markov blanket of variable 0 in `0 → 2 ← 1` holds both other variables. -/
theorem C216_example_iamb {Φ : ℝ → ℝ} (h0 : Φ 0 = 1 / 2) (hΦ : StrictMono Φ) (eps : ℝ) :
    ∃ α0 < 1, ∀ α, α0 ≤ α → α < 1 → ∃ R, (∀ fuel, 3 < fuel → Iamb.iamb (FisherZ.pcTest 3 Φ eps FisherZ.exLin α).pval α (0 : Fin 3) fuel = some R) ∧
      1 ∈ R ∧ 2 ∈ R := by
  obtain ⟨α0, h1, h2⟩ := C216_iamb FisherZ.exD_acyclic FisherZ.exLin_model FisherZ.exLin_faithful h0 hΦ eps (by norm_num)
  refine ⟨α0, h1, fun α ha hb => ?_⟩
  obtain ⟨R, h3, -, h4⟩ := h2 α ha hb 0
  exact ⟨R, h3, (h4 1).2 ⟨by decide, Or.inr (Or.inr ⟨2, ⟨by decide, rfl⟩, ⟨by decide, rfl⟩⟩)⟩,
    (h4 2).2 ⟨by decide, Or.inr (Or.inl ⟨by decide, rfl⟩)⟩⟩

/-- The context 1 and a variable that follows it. -/
def ctxD (a b : Fin 2) : Prop := a = 1 ∧ b = 0

/-- Four rows: two of each context. -/
def ctxRows : Fin 4 → Fin 2 → Int := ![![0, 0], ![0, 0], ![1, 1], ![1, 1]]

theorem ctxD_acyclic : Acyclic ctxD := by
  intro x hx
  have h : ∀ a b, Relation.TransGen ctxD a b → a = 1 ∧ b = 0 := by
    intro a b hab
    induction hab with
    | single h => exact h
    | tail _ h ih => exact ⟨ih.1, h.2⟩
  obtain ⟨h1, h2⟩ := h x x hx
  rw [h1] at h2
  exact absurd h2 (by decide)

theorem ctxRows_markov : Discrete.Markov ctxD ctxRows := by
  intro i v
  have hd : ∀ j, Relation.ReflTransGen ctxD i j ↔ i = j ∨ ctxD i j := by
    intro j
    constructor
    · intro h
      induction h with
      | refl => exact Or.inl rfl
      | tail _ h2 ih =>
        rcases ih with rfl | ih
        · exact Or.inr h2
        · have := ih.2.symm.trans h2.1
          exact absurd this (by decide)
    · rintro (rfl | h)
      exacts [.refl, .single h]
  have hsub : ({j | ¬ Relation.ReflTransGen ctxD i j} : Set (Fin 2)) = {p | ctxD p i} := by
    ext j
    simp only [Set.mem_setOf_eq, hd, ctxD]
    clear hd
    revert i j
    decide
  rw [hsub, Set.union_assoc, Set.union_self]

theorem ctxRows_faithful : Chi.FaithfulTable ctxD ctxRows := by
  intro x y S hxy hx hy hc
  have hcase : (x = 0 ∧ y = 1 ∧ S = ∅) ∨ (x = 1 ∧ y = 0 ∧ S = ∅) := by
    clear hc
    revert x y S
    decide
  rcases hcase with ⟨rfl, rfl, rfl⟩ | ⟨rfl, rfl, rfl⟩
  · exact Chi.not_condIndep ![0, 0] (by decide)
  · exact Chi.not_condIndep ![0, 0] (by decide)

/-- CD-NOD directs the edge from the context. -/
theorem C216_example_cdnod {sf : ℝ → Int → ℝ} (hsf : Chi.Survival sf) (gsq : Bool) :
    ∃ α0 < 1, ∀ α, α0 ≤ α → α < 1 → ∃ H, cdnodAlg (n := 1) (Chi.chiQuery sf gsq ctxRows α) 0 true 0 none Know.none = some H ∧ H.Arrow 1 0 := by
  obtain ⟨α0, h1, h2⟩ := C216_cdnod_chi (n := 1) ctxD_acyclic (fun a h => by exact absurd h.2 (by decide)) hsf gsq ctxRows_markov ctxRows_faithful
    (by norm_num) (by decide)
  refine ⟨α0, h1, fun α ha hb => ?_⟩
  obtain ⟨H, h3, h4, h5⟩ := h2 α ha hb true 0 (by norm_num) none Know.none ⟨by simp [Know.none], by simp [Know.none]⟩
  exact ⟨H, h3, h5 0 ((h4.skeleton _ _).2 (Or.inl ⟨rfl, rfl⟩))⟩

end CL
