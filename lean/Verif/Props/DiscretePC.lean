import Verif.Props.ChiSq
import Verif.Proofs.ChiStat
import Verif.Proofs.Discrete
import Verif.Props.PCComplete

/-!
# C215: PC with the chi-square and G-square tests on discrete data
-/
open Finset Spec ChiSpec
namespace CL.Chi
variable {N n : Nat}

/-- What is known about the survival function of the chi-square distributions: it is 1 at 0 and decreasing. -/
structure Survival (sf : ℝ → Int → ℝ) : Prop where
  zero : ∀ d, 0 < d → sf 0 d = 1
  anti : ∀ d, 0 < d → ∀ s t, 0 ≤ s → s < t → sf t d < sf s d

/-- The textbook p-value is 1 for an independent table and smaller otherwise. -/
theorem pvalue_one {A B C : Type} [DecidableEq A] [DecidableEq B] [DecidableEq C] {sf : ℝ → Int → ℝ} (hsf : Survival sf) (gsq : Bool) {s : Fin N → C}
    {x : Fin N → A} {y : Fin N → B} :
    (IndepTable s x y → pvalue Real.log sf gsq s x y = 1) ∧ (¬ IndepTable s x y → pvalue Real.log sf gsq s x y < 1) := by
  have hdf : 0 ≤ df s x y := by
    by_cases h : IndepTable s x y
    · unfold df
      refine sum_nonneg fun c hc => ?_
      obtain ⟨k, -, rfl⟩ := mem_image.1 hc
      have p1 : 0 < #((univ.filter fun l => s l = s k).image x) := card_pos.2 ⟨x k, mem_image.2 ⟨k, by simp, rfl⟩⟩
      have p2 : 0 < #((univ.filter fun l => s l = s k).image y) := card_pos.2 ⟨y k, mem_image.2 ⟨k, by simp, rfl⟩⟩
      exact mul_nonneg (by omega) (by omega)
    · exact (df_pos h).le
  constructor
  · intro h
    unfold pvalue
    by_cases h0 : df s x y = 0
    · rw [if_pos h0]
    · rw [if_neg h0]
      cases gsq with
      | false => simpa [chi2_of_indep h] using hsf.zero _ (by omega)
      | true => simpa [g2_of_indep h] using hsf.zero _ (by omega)
  · intro h
    have h1 := df_pos h
    unfold pvalue
    rw [if_neg h1.ne', ← hsf.zero _ h1]
    refine hsf.anti _ h1 _ _ le_rfl ?_
    cases gsq with
    | false => simpa using chi2_pos h
    | true => simpa using g2_pos h

/-- The columns of a table. -/
def column (data : Fin N → Fin n → Int) : Fin n → Fin N → Int := fun v k => data k v

theorem card_iff {p q : Fin N → Prop} {dp : DecidablePred p} {dq : DecidablePred q} (h : ∀ k, p k ↔ q k) : #{k | p k} = #{k | q k} := by
  congr 1
  ext k
  simp [h]

/-- The table of a query is independent exactly when the variables are independent given the conditioning set. -/
theorem indepTable_iff {data : Fin N → Fin n → Int} {x y : Fin n} {S : List (Fin n)} (hx : x ∉ S) (hy : y ∉ S) (hxy : x ≠ y) :
    IndepTable (fun k => S.map fun v => column data v k) (column data x) (column data y) ↔ Discrete.CondIndep data {x} {y} {z | z ∈ S} := by
  classical
  have key : ∀ (v : Fin n → Int) (c : List Int), c = S.map v →
      nSXY (fun k => S.map fun v => column data v k) (column data x) (column data y) c (v x) (v y) = Discrete.count data ({x} ∪ {y} ∪ {z | z ∈ S}) v ∧
      nS (fun k => S.map fun v => column data v k) c = Discrete.count data {z | z ∈ S} v ∧
      nSX (fun k => S.map fun v => column data v k) (column data x) c (v x) = Discrete.count data ({x} ∪ {z | z ∈ S}) v ∧
      nSX (fun k => S.map fun v => column data v k) (column data y) c (v y) = Discrete.count data ({y} ∪ {z | z ∈ S}) v := by
    rintro v c rfl
    unfold nSXY nS nSX Discrete.count
    refine ⟨card_iff fun k => ?_, card_iff fun k => ?_, card_iff fun k => ?_,
      card_iff fun k => ?_⟩ <;>
      (rw [List.map_inj_left]; simp only [column, Set.mem_union, Set.mem_singleton_iff, Set.mem_setOf_eq])
    · constructor
      · rintro ⟨h1, h2, h3⟩ j ((rfl | rfl) | hj)
        exacts [h2, h3, h1 j hj]
      · exact fun h => ⟨fun j hj => h j (Or.inr hj), h x (Or.inl (Or.inl rfl)), h y (Or.inl (Or.inr rfl))⟩
    · constructor
      · rintro ⟨h1, h2⟩ j (rfl | hj)
        exacts [h2, h1 j hj]
      · exact fun h => ⟨fun j hj => h j (Or.inr hj), h x (Or.inl rfl)⟩
    · constructor
      · rintro ⟨h1, h2⟩ j (rfl | hj)
        exacts [h2, h1 j hj]
      · exact fun h => ⟨fun j hj => h j (Or.inr hj), h y (Or.inl rfl)⟩
  constructor
  · intro h v
    obtain ⟨h1, h2, h3, h4⟩ := key v _ rfl
    have := h (S.map v) (v x) (v y)
    rwa [h1, h2, h3, h4] at this
  · intro h c a b
    by_cases hc : ∃ k, (S.map fun v => column data v k) = c
    · obtain ⟨k, hk⟩ := hc
      let v : Fin n → Int := fun j => if j = x then a else if j = y then b else data k j
      have hvx : v x = a := if_pos rfl
      have hvy : v y = b := by simp [v, hxy.symm]
      have hc : c = S.map v := by
        rw [← hk, List.map_inj_left]
        intro j hj
        have h1 : j ≠ x := fun e => hx (e ▸ hj)
        have h2 : j ≠ y := fun e => hy (e ▸ hj)
        simp [v, h1, h2, column]
      obtain ⟨h1, h2, h3, h4⟩ := key v c hc
      rw [hvx] at h1 h3
      rw [hvy] at h1 h4
      rw [h1, h2, h3, h4]
      exact h v
    · have h0 : nS (fun k => S.map fun v => column data v k) c = 0 := by
        unfold nS
        rw [card_eq_zero, filter_eq_empty_iff]
        exact fun k _ hk => hc ⟨k, hk⟩
      have h1 : nSX (fun k => S.map fun v => column data v k) (column data x) c a = 0 := Nat.le_zero.1 ((nSX_le c a).trans h0.le)
      rw [h0, h1]
      simp

/-- The number of value combinations of all columns. -/
def cells (data : Fin N → Fin n → Int) : Nat := ∏ v, #(univ.image (column data v))

theorem configurations_le {data : Fin N → Fin n → Int} (hN : 0 < N) {x y : Fin n} {S : List (Fin n)} (hnd : S.Nodup) (hx : x ∉ S) (hy : y ∉ S)
    (hxy : x ≠ y) : configurations (column data) x y S ≤ cells data := by
  have e : configurations (column data) x y S = ∏ v ∈ (x :: y :: S).toFinset, #(univ.image (column data v)) := by
    have hnd' : (x :: y :: S).Nodup := by
      rw [List.nodup_cons, List.nodup_cons]
      exact ⟨by simp [hxy, hx], hy, hnd⟩
    rw [List.prod_toFinset _ hnd', List.map_cons, List.map_cons, List.prod_cons, List.prod_cons]
    unfold configurations
    ring
  rw [e]
  unfold cells
  exact prod_le_prod_of_subset_of_one_le' (subset_univ _) fun v _ _ => configurations_pos _ hN v

/-- The CI test that PC calls. -/
noncomputable def chiTest (sf : ℝ → Int → ℝ) (gsq : Bool) (data : Fin N → Fin n → Int) (α : ℝ) : TestFn n ℝ :=
  ⟨fun x y S => (call Real.log sf gsq (column data) x y S).getD 0, α⟩

/-- **C215.** The p-value of the chi-square test and of the G-square test is 1 when the two variables are independent given the conditioning set in the
table, and smaller than 1 otherwise. -/
theorem C215_pvalue {sf : ℝ → Int → ℝ} (hsf : Survival sf) (gsq : Bool) {data : Fin N → Fin n → Int} (hN : 0 < N) (hsize : cells data < 2 ^ 63)
    {x y : Fin n} {S : List (Fin n)} (hxy : x ≠ y) (hnd : S.Nodup) (hx : x ∉ S) (hy : y ∉ S) :
    ∃ p, call Real.log sf gsq (column data) x y S = some p ∧ (Discrete.CondIndep data {x} {y} {z | z ∈ S} → p = 1) ∧
      (¬ Discrete.CondIndep data {x} {y} {z | z ∈ S} → p < 1) := by
  refine ⟨_, call_spec Real.log sf gsq _ x y S hN (lt_of_le_of_lt (configurations_le hN hnd hx hy hxy) hsize), ?_⟩
  rw [← indepTable_iff hx hy hxy]
  exact pvalue_one hsf gsq

/-- **C215.** In a table that is Markov for a DAG (every variable is independent of its non-descendants given its parents) the p-value of two
variables that are d-separated by the conditioning set is exactly 1. -/
theorem C215_dsep_pvalue {D : Fin n → Fin n → Prop} (hac : Acyclic D) {sf : ℝ → Int → ℝ} (hsf : Survival sf) (gsq : Bool)
    {data : Fin N → Fin n → Int} (hM : Discrete.Markov D data) (hN : 0 < N) (hsize : cells data < 2 ^ 63)
    {x y : Fin n} {S : List (Fin n)} (hxy : x ≠ y) (hnd : S.Nodup) (hx : x ∉ S) (hy : y ∉ S) (hsep : DSep D {z | z ∈ S} x y) :
    call Real.log sf gsq (column data) x y S = some 1 := by
  obtain ⟨p, h1, h2, -⟩ := C215_pvalue hsf gsq hN hsize hxy hnd hx hy
  rw [h1, h2 (hM.global hac hx hy hsep)]

/-- No accidental independence: d-connected variables are dependent in the table. -/
def FaithfulTable (D : Fin n → Fin n → Prop) (data : Fin N → Fin n → Int) : Prop :=
  ∀ x y (S : Finset (Fin n)), x ≠ y → x ∉ S → y ∉ S → DConn D S x y → ¬ Discrete.CondIndep data {x} {y} S

/-- **C215.** For a table that is Markov and faithful for `D` there is a level below 1 from which on PC with the chi-square or the G-square test
returns the essential graph of `D`, for the collider rules 0, 1, 2, every priority rule and both skeleton modes. -/
theorem C215_pc_faithful {D : Fin n → Fin n → Prop} (hac : Acyclic D) {sf : ℝ → Int → ℝ} (hsf : Survival sf) (gsq : Bool)
    {data : Fin N → Fin n → Int} (hM : Discrete.Markov D data) (hf : FaithfulTable D data) (hN : 0 < N) (hsize : cells data < 2 ^ 63) :
    ∃ α0 < 1, ∀ α, α0 ≤ α → α < 1 → ∀ (stable : Bool) (ucRule : Nat), ucRule ≤ 2 → ∀ prio : Option Nat,
      ∃ H, pcAlg (chiTest sf gsq data α) 0 stable ucRule prio Know.none = some H ∧ ∀ a b, (H.g a b = .null ↔ ¬ Adj D a b) ∧
        (H.Arrow a b ↔ Compelled D a b) ∧ ((H.g a b = .tail ∧ H.g b a = .tail) ↔ Adj D a b ∧ ¬ Compelled D a b ∧ ¬ Compelled D b a) := by
  classical
  let pv : Fin n × Fin n × Finset (Fin n) → ℝ := fun q => (chiTest sf gsq data 0).pval q.1 q.2.1 q.2.2.toList
  let Q : Finset (Fin n × Fin n × Finset (Fin n)) := univ.filter fun q => pv q < 1
  have hpv : ∀ x y (S : List (Fin n)) α, x ≠ y → S.Nodup → x ∉ S → y ∉ S → (chiTest sf gsq data α).pval x y S = pv (x, y, S.toFinset) := by
    intro x y S α hxy hnd hx hy
    show (call Real.log sf gsq (column data) x y S).getD 0 = (call Real.log sf gsq (column data) x y S.toFinset.toList).getD 0
    rw [C73_conditioning_set Real.log sf gsq (column data) x y S S.toFinset.toList hN
      (lt_of_le_of_lt (configurations_le hN hnd hx hy hxy) hsize)
      (lt_of_le_of_lt (configurations_le hN (nodup_toList _) (by simpa using hx) (by simpa using hy) hxy) hsize) (by simp)]
  have hlt : ∀ x y (S : List (Fin n)), x ≠ y → S.Nodup → x ∉ S → y ∉ S → DConn D {z | z ∈ S} x y → pv (x, y, S.toFinset) < 1 := by
    intro x y S hxy hnd hx hy hc
    have hz : ((S.toFinset : Finset (Fin n)) : Set (Fin n)) = {z | z ∈ S} := by ext z; simp
    obtain ⟨p, h1, -, h3⟩ := C215_pvalue hsf gsq hN hsize hxy hnd hx hy
    rw [← hpv x y S 0 hxy hnd hx hy]
    show (call Real.log sf gsq (column data) x y S).getD 0 < 1
    rw [h1]
    exact h3 (by rw [← hz]; exact hf x y S.toFinset hxy (by simpa using hx) (by simpa using hy) (by rw [hz]; exact hc))
  have hfin : ∃ α0 < 1, ∀ q ∈ Q, pv q ≤ α0 := by
    rcases Q.eq_empty_or_nonempty with h | h
    · exact ⟨0, by norm_num, by simp [h]⟩
    · obtain ⟨q, hq, hmax⟩ := exists_max_image Q pv h
      exact ⟨pv q, (mem_filter.1 hq).2, hmax⟩
  obtain ⟨α0, h1, h2⟩ := hfin
  refine ⟨α0, h1, fun α ha hb stable ucRule hr prio => C64_pc_essential_graph D hac _ 0 ?_ stable ucRule hr prio⟩
  intro x y S hxy hnd hx hy
  have hind : (chiTest sf gsq data α).ind x y S = true ↔ α < (chiTest sf gsq data α).pval x y S := by
    unfold TestFn.ind
    rw [decide_eq_true_iff]
    rfl
  rw [hind]
  constructor
  · intro h hc
    rw [hpv x y S α hxy hnd hx hy] at h
    exact absurd ((h2 _ (mem_filter.2 ⟨mem_univ _, hlt x y S hxy hnd hx hy hc⟩)).trans ha) (not_le.2 h)
  · intro h
    show α < (call Real.log sf gsq (column data) x y S).getD 0
    rw [C215_dsep_pvalue hac hsf gsq hM hN hsize hxy hnd hx hy h]
    exact hb

/-! ### An example: the collider `0 → 2 ← 1`, where `2` is the disjunction of two fair coins -/

/-- `0 → 2 ← 1`. -/
def orD (a b : Fin 3) : Prop := a ≠ 2 ∧ b = 2

/-- The four equally frequent rows. -/
def orRows : Fin 4 → Fin 3 → Int := ![![0, 0, 0], ![0, 1, 1], ![1, 0, 1], ![1, 1, 1]]

theorem orD_acyclic : Acyclic orD := by
  intro x hx
  have h : ∀ a b, Relation.TransGen orD a b → a ≠ 2 ∧ b = 2 := by
    intro a b hab
    induction hab with
    | single h => exact h
    | tail _ h ih => exact ⟨ih.1, h.2⟩
  exact (h x x hx).1 (h x x hx).2

theorem or_desc {a b : Fin 3} : Relation.ReflTransGen orD a b ↔ a = b ∨ orD a b := by
  constructor
  · intro h
    induction h with
    | refl => exact Or.inl rfl
    | tail _ h2 ih =>
      rcases ih with rfl | ih
      · exact Or.inr h2
      · exact absurd ih.2 h2.1
  · rintro (rfl | h)
    exacts [.refl, .single h]

theorem count_finset (data : Fin N → Fin n → Int) (W : Finset (Fin n)) (v : Fin n → Int) :
    Discrete.count data W v = #{k | ∀ j ∈ W, data k j = v j} := by
  unfold Discrete.count
  exact card_iff fun k => by simp only [mem_coe]

theorem orRows_coins (v : Fin 3 → Int) :
    Discrete.count orRows ({0, 1} : Finset (Fin 3)) v * 4 = Discrete.count orRows ({0} : Finset (Fin 3)) v * Discrete.count orRows ({1} : Finset (Fin 3)) v := by
  rw [count_finset, count_finset, count_finset]
  simp only [card_filter, Fin.sum_univ_four, mem_insert, mem_singleton, forall_eq_or_imp, forall_eq, orRows]
  simp
  generalize v 0 = a
  generalize v 1 = b
  have ha : a = 0 ∨ a = 1 ∨ (0 ≠ a ∧ 1 ≠ a) := by omega
  have hb : b = 0 ∨ b = 1 ∨ (0 ≠ b ∧ 1 ≠ b) := by omega
  rcases ha with rfl | rfl | ⟨h1, h2⟩ <;> rcases hb with rfl | rfl | ⟨h3, h4⟩ <;> simp [*]

theorem orRows_markov : Discrete.Markov orD orRows := by
  intro i v
  have e4 : Discrete.count orRows ((∅ : Finset (Fin 3)) : Set (Fin 3)) v = 4 := by rw [count_finset]; simp
  have hd : {j | ¬ Relation.ReflTransGen orD i j} = (((univ : Finset (Fin 3)).filter fun j => ¬ (i = j ∨ (i ≠ 2 ∧ j = 2))) : Finset (Fin 3)) := by
    ext j
    simp [or_desc, orD]
  have hp : {p | orD p i} = (((univ : Finset (Fin 3)).filter fun p => p ≠ 2 ∧ i = 2) : Finset (Fin 3)) := by
    ext j
    simp [orD]
  rw [hd, hp, ← coe_singleton i, ← coe_union, ← coe_union, ← coe_union, ← coe_union]
  clear hd hp
  rcases (by decide : ∀ i : Fin 3, i = 0 ∨ i = 1 ∨ i = 2) i with rfl | rfl | rfl
  · rw [show (univ.filter fun p : Fin 3 => p ≠ 2 ∧ (0 : Fin 3) = 2) = ∅ by decide, e4,
      show ({0} ∪ (univ.filter fun j : Fin 3 => ¬ ((0 : Fin 3) = j ∨ ((0 : Fin 3) ≠ 2 ∧ j = 2))) ∪ ∅ : Finset (Fin 3)) = {0, 1} by decide,
      show ({0} ∪ ∅ : Finset (Fin 3)) = {0} by decide,
      show ((univ.filter fun j : Fin 3 => ¬ ((0 : Fin 3) = j ∨ ((0 : Fin 3) ≠ 2 ∧ j = 2))) ∪ ∅ : Finset (Fin 3)) = {1} by decide]
    exact orRows_coins v
  · rw [show (univ.filter fun p : Fin 3 => p ≠ 2 ∧ (1 : Fin 3) = 2) = ∅ by decide, e4,
      show ({1} ∪ (univ.filter fun j : Fin 3 => ¬ ((1 : Fin 3) = j ∨ ((1 : Fin 3) ≠ 2 ∧ j = 2))) ∪ ∅ : Finset (Fin 3)) = {0, 1} by decide,
      show ({1} ∪ ∅ : Finset (Fin 3)) = {1} by decide,
      show ((univ.filter fun j : Fin 3 => ¬ ((1 : Fin 3) = j ∨ ((1 : Fin 3) ≠ 2 ∧ j = 2))) ∪ ∅ : Finset (Fin 3)) = {0} by decide]
    rw [orRows_coins v, mul_comm]
  · rw [show ({2} ∪ (univ.filter fun j : Fin 3 => ¬ ((2 : Fin 3) = j ∨ ((2 : Fin 3) ≠ 2 ∧ j = 2))) ∪
        (univ.filter fun p : Fin 3 => p ≠ 2 ∧ (2 : Fin 3) = 2) : Finset (Fin 3)) = univ by decide,
      show ({2} ∪ (univ.filter fun p : Fin 3 => p ≠ 2 ∧ (2 : Fin 3) = 2) : Finset (Fin 3)) = univ by decide,
      show ((univ.filter fun j : Fin 3 => ¬ ((2 : Fin 3) = j ∨ ((2 : Fin 3) ≠ 2 ∧ j = 2))) ∪
        (univ.filter fun p : Fin 3 => p ≠ 2 ∧ (2 : Fin 3) = 2) : Finset (Fin 3)) = univ.filter fun p => p ≠ 2 ∧ (2 : Fin 3) = 2 by decide]

theorem not_condIndep {data : Fin N → Fin n → Int} {x y : Fin n} {S : Finset (Fin n)} (v : Fin n → Int)
    (h : #{k | ∀ j ∈ {x} ∪ {y} ∪ S, data k j = v j} * #{k | ∀ j ∈ S, data k j = v j} ≠
      #{k | ∀ j ∈ {x} ∪ S, data k j = v j} * #{k | ∀ j ∈ {y} ∪ S, data k j = v j}) : ¬ Discrete.CondIndep data {x} {y} S := by
  intro hc
  have := hc v
  rw [← coe_singleton x, ← coe_singleton y, ← coe_union, ← coe_union, ← coe_union, ← coe_union, count_finset, count_finset, count_finset,
    count_finset] at this
  exact h this

theorem orRows_faithful : FaithfulTable orD orRows := by
  have key : ∀ x y (S : Finset (Fin 3)), x < y → x ∉ S → y ∉ S → DConn orD S x y → ¬ Discrete.CondIndep orRows {x} {y} S := by
    intro x y S hxy hx hy hc
    have h01 : DSep orD ((∅ : Finset (Fin 3)) : Set (Fin 3)) 0 1 := by
      have h := local_markov orD_acyclic (x := 0) (y := 1) (by decide) (by simp [Adj, orD]) (by
        intro h
        have : ∀ a b, Relation.TransGen orD a b → b = 2 := by
          intro a b hab
          induction hab with
          | single h => exact h.2
          | tail _ h _ => exact h.2
        exact absurd (this _ _ h) (by decide))
      have e : {p | orD p 0} = ((∅ : Finset (Fin 3)) : Set (Fin 3)) := by
        ext p
        simp [orD]
      rwa [e] at h
    have hS : S ∈ (univ : Finset (Fin 3)).powerset := by simp
    have hcase : (x = 0 ∧ y = 1 ∧ (S = ∅ ∨ S = {2})) ∨ (x = 0 ∧ y = 2 ∧ (S = ∅ ∨ S = {1})) ∨ (x = 1 ∧ y = 2 ∧ (S = ∅ ∨ S = {0})) := by
      clear hc h01 hS
      revert x y S
      decide
    rcases hcase with ⟨rfl, rfl, rfl | rfl⟩ | ⟨rfl, rfl, rfl | rfl⟩ | ⟨rfl, rfl, rfl | rfl⟩
    · exact absurd hc h01
    · exact not_condIndep ![1, 1, 1] (by decide)
    · exact not_condIndep ![0, 0, 0] (by decide)
    · exact not_condIndep ![0, 0, 0] (by decide)
    · exact not_condIndep ![0, 0, 0] (by decide)
    · exact not_condIndep ![0, 0, 0] (by decide)
  intro x y S hxy hx hy hc hp
  rcases lt_or_gt_of_ne hxy with h | h
  · exact key x y S h hx hy hc hp
  · exact key y x S h hy hx hc.symm hp.symm

theorem orRows_cells : cells orRows < 2 ^ 63 := by decide

/-- The four rows meet every hypothesis of `C215_pc_faithful`: for large enough levels PC orients the collider. -/
theorem C215_example {sf : ℝ → Int → ℝ} (hsf : Survival sf) (gsq : Bool) :
    ∃ α0 < 1, ∀ α, α0 ≤ α → α < 1 → ∃ H, pcAlg (chiTest sf gsq orRows α) 0 true 0 none Know.none = some H ∧ H.g 0 1 = .null ∧
      H.Arrow 0 2 ∧ H.Arrow 1 2 := by
  obtain ⟨α0, h1, h2⟩ := C215_pc_faithful orD_acyclic hsf gsq orRows_markov orRows_faithful (by norm_num) orRows_cells
  refine ⟨α0, h1, fun α ha hb => ?_⟩
  obtain ⟨H, h3, h4⟩ := h2 α ha hb true 0 (by norm_num) none
  refine ⟨H, h3, (h4 0 1).1.2 (by simp [Adj, orD]), ?_, ?_⟩
  · rw [(h4 _ _).2.1]
    exact ⟨by simp [orD], fun F _ hF => ((hF.2 0 2 1).1 (by simp [UnshieldedCollider, Collider, Adj, orD])).2.2.1⟩
  · rw [(h4 _ _).2.1]
    exact ⟨by simp [orD], fun F _ hF => ((hF.2 0 2 1).1 (by simp [UnshieldedCollider, Collider, Adj, orD])).2.2.2⟩

/-- A survival function with the two properties. -/
theorem survival_example : Survival fun s _ => Real.exp (-s) :=
  ⟨fun _ _ => by simp, fun _ _ s t _ h => Real.exp_lt_exp.2 (by linarith)⟩

end CL.Chi
