import Verif.Model.Ges
import Verif.Proofs.Ges
import Verif.Proofs.Skeleton
import Verif.Proofs.PC
import Mathlib.Algebra.BigOperators.Group.Finset.Basic
import Mathlib.Algebra.Order.Group.Defs
import Mathlib.Tactic.Abel

/-!
# C36: GES
-/
namespace CL
namespace Ges
open GG Spec Relation
variable {n : Nat}

/-! ## The path test -/

/-- one edge of a semi-directed path in the graph object -/
def SemiP (P : GG n) (a b : Fin n) : Prop := P.g b a = .arrow ∨ (P.g a b = .tail ∧ P.g b a = .tail)

theorem mem_semiNext {P : GG n} (v k : Fin n) : k ∈ semiNext P v ↔ SemiP P v k := by
  simp [semiNext, SemiP]

theorem semiNext_nodup (P : GG n) (v : Fin n) : (semiNext P v).Nodup := by
  unfold semiNext
  rw [List.nodup_append]
  refine ⟨(List.nodup_finRange n).filter _, (List.nodup_finRange n).filter _, ?_⟩
  intro a ha b hb hab
  subst hab
  simp only [List.mem_filter, List.mem_finRange, true_and, beq_iff_eq, Bool.and_eq_true] at ha hb
  rw [ha] at hb
  cases hb.2

/-- the search can complete the path to a semi-directed path into `i` that has no interior node in `nat` -/
inductive Reach (P : GG n) (i : Fin n) (nat : Finset (Fin n)) : List (Fin n) → Prop
  | here {anc} : (∀ v ∈ anc, v ∉ nat) → Reach P i nat (i :: anc)
  | step {v k anc} : v ≠ i → SemiP P v k → k ∉ v :: anc → Reach P i nat (k :: v :: anc) → Reach P i nat (v :: anc)

theorem reach_iff {P : GG n} {i : Fin n} {nat : Finset (Fin n)} {v : Fin n} {anc : List (Fin n)} (hl : ∀ a, P.g a a = .null) :
    Reach P i nat (v :: anc) ↔ if v = i then ∀ w ∈ anc, w ∉ nat
      else ∃ k ∈ (semiNext P v).filter (· ∉ anc), Reach P i nat (k :: v :: anc) := by
  constructor
  · intro h
    cases h with
    | here h => rw [if_pos rfl]; exact h
    | @step _ k _ h1 h2 h3 h4 =>
      rw [if_neg h1]
      refine ⟨k, ?_, h4⟩
      simp only [List.mem_filter, mem_semiNext, decide_eq_true_eq]
      exact ⟨h2, fun h => h3 (by simp [h])⟩
  · intro h
    split at h
    · rename_i hv; subst hv; exact .here h
    · rename_i hv
      obtain ⟨k, hk, h1⟩ := h
      simp only [List.mem_filter, mem_semiNext, decide_eq_true_eq] at hk
      refine .step hv hk.1 ?_ h1
      intro hm
      rcases List.mem_cons.1 hm with rfl | hm
      · unfold SemiP at hk; simp [hl] at hk
      · exact hk.2 hm

theorem vc2Loop_correct {P : GG n} {i : Fin n} {nat : Finset (Fin n)} (hl : ∀ a, P.g a a = .null) :
    ∀ (f : Nat) (st : List (List (Fin n))) (b : Bool), vc2Loop P i nat f st = some b →
      (b = false ↔ ∃ p ∈ st, Reach P i nat p) := by
  intro f
  induction f with
  | zero => intro st b h; simp [vc2Loop] at h
  | succ f ih =>
    intro st b h
    match st with
    | [] => simp [vc2Loop] at h; subst h; simp
    | [] :: st =>
      simp only [vc2Loop] at h
      rw [ih st b h]
      simp only [List.mem_cons, exists_eq_or_imp]
      constructor
      · exact Or.inr
      · rintro (h | h)
        · cases h
        · exact h
    | (v :: anc) :: st =>
      simp only [vc2Loop] at h
      simp only [List.mem_cons, exists_eq_or_imp]
      rw [reach_iff hl]
      by_cases hv : v = i
      · rw [if_pos hv] at h ⊢
        by_cases ha : anc.any (· ∈ nat) = true
        · rw [if_pos ha] at h
          rw [ih st b h]
          constructor
          · exact Or.inr
          · rintro (h1 | h1)
            · simp only [List.any_eq_true, decide_eq_true_eq] at ha
              obtain ⟨w, h2, h3⟩ := ha
              exact absurd h3 (h1 w h2)
            · exact h1
        · rw [if_neg ha] at h
          simp only [Option.some.injEq] at h
          subst h
          simp only [List.any_eq_true, decide_eq_true_eq, not_exists, not_and] at ha
          simp only [true_iff]
          exact Or.inl ha
      · rw [if_neg hv] at h ⊢
        rw [ih _ b h]
        simp only [List.mem_append, List.mem_map, List.mem_reverse]
        constructor
        · rintro ⟨p, ⟨k, h1, rfl⟩ | h1, h2⟩
          · exact Or.inl ⟨k, h1, h2⟩
          · exact Or.inr ⟨p, h1, h2⟩
        · rintro (⟨k, h1, h2⟩ | ⟨p, h1, h2⟩)
          · exact ⟨_, Or.inl ⟨k, h1, rfl⟩, h2⟩
          · exact ⟨p, Or.inr h1, h2⟩

/-- weight of a path on the stack -/
def pathW (n : Nat) (p : List (Fin n)) : Nat := (n + 1) ^ (n - p.length)

theorem vc2Loop_returns {P : GG n} {i : Fin n} {nat : Finset (Fin n)} (hl : ∀ a, P.g a a = .null) :
    ∀ (f : Nat) (st : List (List (Fin n))), (∀ p ∈ st, p.Nodup) → (st.map (pathW n)).sum < f →
      ∃ b, vc2Loop P i nat f st = some b := by
  intro f
  induction f with
  | zero => intro st _ h; omega
  | succ f ih =>
    intro st hn hf
    have hpos : ∀ p : List (Fin n), 1 ≤ pathW n p := fun p => Nat.one_le_pow _ _ (by omega)
    match st with
    | [] => exact ⟨true, rfl⟩
    | [] :: st =>
      simp only [vc2Loop]
      have := hpos []
      simp only [List.map_cons, List.sum_cons] at hf
      exact ih st (fun p hp => hn p (by simp [hp])) (by omega)
    | (v :: anc) :: st =>
      simp only [vc2Loop]
      have h1 := hpos (v :: anc)
      simp only [List.map_cons, List.sum_cons] at hf
      have hn' : ∀ p ∈ st, p.Nodup := fun p hp => hn p (by simp [hp])
      by_cases hv : v = i
      · rw [if_pos hv]
        split
        · exact ih st hn' (by omega)
        · exact ⟨_, rfl⟩
      · rw [if_neg hv]
        have hnd := hn (v :: anc) (by simp)
        have hch : ∀ k ∈ (semiNext P v).filter (· ∉ anc), (k :: v :: anc).Nodup := by
          intro k hk
          simp only [List.mem_filter, mem_semiNext, decide_eq_true_eq] at hk
          rw [List.nodup_cons]
          refine ⟨?_, hnd⟩
          intro hm
          rcases List.mem_cons.1 hm with rfl | hm
          · unfold SemiP at hk; simp [hl] at hk
          · exact hk.2 hm
        refine ih _ ?_ ?_
        · intro p hp
          rcases List.mem_append.1 hp with hp | hp
          · obtain ⟨k, hk, rfl⟩ := List.mem_map.1 hp
            exact hch k (List.mem_reverse.1 hk)
          · exact hn' p hp
        · rw [List.map_append, List.sum_append, List.map_map]
          have hlen : ((semiNext P v).filter (· ∉ anc)).length ≤ n := by
            have h2 := ((semiNext_nodup P v).filter (fun k => decide (k ∉ anc)))
            have h3 := (h2.subperm (l₂ := List.finRange n) fun k _ => List.mem_finRange k).length_le
            simpa using h3
          have key : (((semiNext P v).filter (· ∉ anc)).reverse.map (pathW n ∘ (· :: v :: anc))).sum + 1 ≤ pathW n (v :: anc) := by
            by_cases he : (semiNext P v).filter (· ∉ anc) = []
            · rw [he]; simpa using h1
            · obtain ⟨k, hk⟩ := List.exists_mem_of_ne_nil _ he
              have hk' := hch k hk
              have hlt : (k :: v :: anc).length ≤ n := by
                have := (hk'.subperm (l₂ := List.finRange n) fun k _ => List.mem_finRange k).length_le
                simpa using this
              simp only [List.length_cons] at hlt
              have hc : ∀ k', (pathW n ∘ (· :: v :: anc)) k' = (n + 1) ^ (n - (anc.length + 2)) := by
                intro k'
                simp [pathW]
              have hs : (((semiNext P v).filter (· ∉ anc)).reverse.map (pathW n ∘ (· :: v :: anc))).sum =
                  ((semiNext P v).filter (· ∉ anc)).length * (n + 1) ^ (n - (anc.length + 2)) := by
                rw [List.map_congr_left (fun k' _ => hc k'), List.map_const', List.sum_replicate, List.length_reverse]
                simp
              rw [hs]
              have e : n - (v :: anc).length = (n - (anc.length + 2)) + 1 := by simp only [List.length_cons]; omega
              unfold pathW
              rw [e, pow_succ]
              have hp1 : 1 ≤ (n + 1) ^ (n - (anc.length + 2)) := Nat.one_le_pow _ _ (by omega)
              have := Nat.mul_le_mul_right ((n + 1) ^ (n - (anc.length + 2))) hlen
              rw [Nat.mul_add, Nat.mul_comm _ n, Nat.mul_one]
              omega
          omega

/-- a walk can be shortened to a path -/
theorem simple_path {R : Fin n → Fin n → Prop} {a b : Fin n} (h : ReflTransGen R a b) :
    ∃ l, (a :: l).Nodup ∧ List.IsChain R (a :: l) ∧ (a :: l).getLast? = some b := by
  induction h using ReflTransGen.head_induction_on with
  | refl => exact ⟨[], by simp, by simp, by simp⟩
  | @head a c hac _ ih =>
    obtain ⟨l, h1, h2, h3⟩ := ih
    by_cases hm : a ∈ c :: l
    · obtain ⟨s, t, hst⟩ := List.append_of_mem hm
      refine ⟨t, ?_, ?_, ?_⟩
      · rw [hst] at h1; exact (List.nodup_append.1 h1).2.1
      · rw [hst] at h2; exact (List.isChain_append.1 h2).2.1
      · rw [hst] at h3
        rw [List.getLast?_append] at h3
        simpa using h3
    · exact ⟨c :: l, by rw [List.nodup_cons]; exact ⟨hm, h1⟩, by rw [List.isChain_cons_cons]; exact ⟨hac, h2⟩, by
        rw [List.getLast?_cons_cons]; exact h3⟩

theorem reach_of_chain {P : GG n} {i : Fin n} {nat : Finset (Fin n)} : ∀ (l : List (Fin n)) (v : Fin n) (anc : List (Fin n)),
    (v :: l).Nodup → List.IsChain (fun a b => SemiP P a b ∧ b ∉ nat) (v :: l) → (v :: l).getLast? = some i →
    (∀ w ∈ anc, w ∉ v :: l) → (∀ w ∈ anc, w ∉ nat) → v ∉ nat → Reach P i nat (v :: anc) := by
  intro l
  induction l with
  | nil =>
    intro v anc _ _ h3 _ h5 _
    simp at h3
    subst h3
    exact .here h5
  | cons k l ih =>
    intro v anc h1 h2 h3 h4 h5 h6
    rw [List.getLast?_cons_cons] at h3
    rw [List.isChain_cons_cons] at h2
    rw [List.nodup_cons] at h1
    have hi : i ∈ k :: l := List.mem_of_getLast? h3
    refine .step (fun h => h1.1 (h ▸ hi)) h2.1.1 ?_ ?_
    · intro hm
      rcases List.mem_cons.1 hm with rfl | hm
      · exact h1.1 (by simp)
      · exact h4 k hm (by simp)
    · refine ih k (v :: anc) h1.2 h2.2 h3 ?_ ?_ h2.1.2
      · intro w hw
        rcases List.mem_cons.1 hw with rfl | hw
        · exact h1.1
        · exact fun h => h4 w hw (by simp [h])
      · intro w hw
        rcases List.mem_cons.1 hw with rfl | hw
        · exact h6
        · exact h5 w hw

theorem reach_walk {P : GG n} {i : Fin n} {nat : Finset (Fin n)} (hi : i ∉ nat) {p : List (Fin n)} (h : Reach P i nat p) :
    ∀ v anc, p = v :: anc → (∀ w ∈ anc, w ∉ nat) ∧ v ∉ nat ∧ ReflTransGen (fun a b => SemiP P a b ∧ b ∉ nat) v i := by
  induction h with
  | here h =>
    intro v anc he
    injection he with h1 h2
    subst h1; subst h2
    exact ⟨h, hi, .refl⟩
  | @step v k anc h1 h2 h3 _ ih =>
    intro v' anc' he
    injection he with e1 e2
    subst e1; subst e2
    obtain ⟨i1, i2, i3⟩ := ih k (v :: anc) rfl
    exact ⟨fun w hw => i1 w (by simp [hw]), i1 v (by simp), ReflTransGen.head ⟨h2, i2⟩ i3⟩

/-- **C36** (path test). For every graph without self-loops `insert_vc2_new` returns, and it accepts exactly when every
semi-directed path from `j` to `i` meets the given set. -/
theorem C36_path_test {P : GG n} (hl : ∀ a, P.g a a = .null) {i j : Fin n} {nat : Finset (Fin n)} (hi : i ∉ nat) (hj : j ∉ nat) :
    ∃ b, (∀ f, vc2Fuel n ≤ f → vc2Loop P i nat f [[j]] = some b) ∧
      (b = true ↔ ¬ ReflTransGen (fun a b => SemiP P a b ∧ b ∉ nat) j i) := by
  have hret : ∀ f, vc2Fuel n ≤ f → ∃ b, vc2Loop P i nat f [[j]] = some b := by
    intro f hf
    refine vc2Loop_returns hl f [[j]] (by simp) ?_
    simp only [List.map_cons, List.map_nil, List.sum_cons, List.sum_nil, pathW, List.length_singleton, add_zero]
    have : (n + 1) ^ (n - 1) ≤ (n + 1) ^ (n + 1) := Nat.pow_le_pow_right (by omega) (by omega)
    unfold vc2Fuel at hf
    omega
  have hspec : ∀ f b, vc2Loop P i nat f [[j]] = some b →
      (b = true ↔ ¬ ReflTransGen (fun a b => SemiP P a b ∧ b ∉ nat) j i) := by
    intro f b hb
    have h1 := vc2Loop_correct hl f [[j]] b hb
    simp only [List.mem_singleton, exists_eq_left] at h1
    have h2 : Reach P i nat [j] ↔ ReflTransGen (fun a b => SemiP P a b ∧ b ∉ nat) j i := by
      constructor
      · exact fun h => (reach_walk hi h j [] rfl).2.2
      · intro h
        obtain ⟨l, l1, l2, l3⟩ := simple_path h
        exact reach_of_chain l j [] l1 l2 l3 (by simp) (by simp) hj
    rw [← h2, ← h1]
    cases b <;> simp
  obtain ⟨b, hb⟩ := hret _ (le_refl _)
  refine ⟨b, fun f hf => ?_, hspec _ _ hb⟩
  obtain ⟨b', hb'⟩ := hret f hf
  have h1 := hspec _ _ hb
  have h2 := hspec _ _ hb'
  rw [hb']
  cases b <;> cases b' <;> simp_all

/-! ## Cliques -/

theorem mem_asc (A : Finset (Fin n)) (a : Fin n) : a ∈ asc A ↔ a ∈ A := by simp [asc]

theorem checkClique_iff {P : GG n} (hP : P.IsPdag) (A : Finset (Fin n)) :
    checkClique P A = true ↔ ∀ a ∈ A, ∀ b ∈ A, a ≠ b → P.g a b ≠ .null := by
  simp only [checkClique, List.all_eq_true, mem_asc, beq_iff_eq, cliqueCell]
  constructor
  · intro h a ha b hb hab h0
    have := h a ha b hb
    have h1 := (hP.symm a b).1 h0
    rw [if_neg hab, h0, h1] at this
    simp at this
  · intro h a ha b hb
    by_cases hab : a = b
    · subst hab; simp [hP.noLoop]
    · have := h a ha b hb hab
      rw [if_neg hab]
      rcases hP.cases a b with h1 | h1 | h1 | h1 <;> simp_all

/-! ## Subsets and flags -/

theorem mem_combinatorial {l t : List (Fin n)} : t ∈ combinatorial l ↔ t.Sublist l := by
  simp only [combinatorial, List.mem_flatMap, List.mem_range, combos_mem]
  constructor
  · rintro ⟨k, _, h, _⟩; exact h
  · intro h; exact ⟨t.length, Nat.lt_succ_of_le h.length_le, h, rfl⟩

theorem asc_nodup (A : Finset (Fin n)) : (asc A).Nodup := (List.nodup_finRange n).filter _

theorem subset_of_combinatorial {A : Finset (Fin n)} {t : List (Fin n)} (h : t ∈ combinatorial (asc A)) : t.Nodup ∧ t.toFinset ⊆ A := by
  rw [mem_combinatorial] at h
  refine ⟨h.nodup (asc_nodup A), fun a ha => ?_⟩
  rw [List.mem_toFinset] at ha
  exact (mem_asc A a).1 (h.subset ha)

theorem combinatorial_of_subset {A B : Finset (Fin n)} (h : B ⊆ A) : ∃ t ∈ combinatorial (asc A), t.toFinset = B := by
  refine ⟨(asc A).filter (· ∈ B), mem_combinatorial.2 List.filter_sublist, ?_⟩
  ext a
  simp only [List.mem_toFinset, List.mem_filter, mem_asc, decide_eq_true_eq]
  exact ⟨fun h => h.2, fun hb => ⟨h hb, hb⟩⟩

theorem subsetInclude_sub {s t : List (Fin n)} (h : subsetInclude s t = true) : s.toFinset ⊆ t.toFinset := by
  unfold subsetInclude at h
  split at h
  · rename_i hs; subst hs; simp
  · simp only [decide_eq_true_eq] at h
    rw [← h.2]
    exact Finset.inter_subset_right

/-! ## The record of local scores -/

variable {K : Type} [AddCommGroup K] [LinearOrder K]

/-- every row of the record is the true local score of its parent set -/
def RecOk (sc : Fin n → Finset (Fin n) → K) (r : Rec n K) : Prop :=
  ∀ j, ∀ e ∈ r j, ∃ A : Finset (Fin n), e.2 = sc j A ∧ (e.1.toFinset = (key A).toFinset ∨ (e.1.toFinset = {-1} ∧ A = ∅))

theorem mem_key (A : Finset (Fin n)) (z : Int) : z ∈ (key A).toFinset ↔ ∃ a ∈ A, z = ((a : Nat) : Int) := by
  simp only [key, List.mem_toFinset, List.mem_map, mem_asc]
  constructor
  · rintro ⟨a, h, rfl⟩; exact ⟨a, h, rfl⟩
  · rintro ⟨a, h, rfl⟩; exact ⟨a, h, rfl⟩

theorem key_inj {A B : Finset (Fin n)} (h : (key A).toFinset = (key B).toFinset) : A = B := by
  ext a
  have h1 : ((a : Nat) : Int) ∈ (key A).toFinset ↔ ((a : Nat) : Int) ∈ (key B).toFinset := by rw [h]
  rw [mem_key, mem_key] at h1
  have e : ∀ C : Finset (Fin n), (∃ b ∈ C, ((a : Nat) : Int) = ((b : Nat) : Int)) ↔ a ∈ C := by
    intro C
    constructor
    · rintro ⟨b, hb, hab⟩
      have : a = b := Fin.ext (by exact_mod_cast hab)
      rwa [this]
    · exact fun ha => ⟨a, ha, rfl⟩
  rwa [e, e] at h1

theorem key_ne_sentinel (A : Finset (Fin n)) : (key A).toFinset ≠ {-1} := by
  intro h
  have : (-1 : Int) ∈ (key A).toFinset := by rw [h]; simp
  obtain ⟨a, _, ha⟩ := (mem_key A _).1 this
  omega

theorem lookLoop_ok {sc : Fin n → Finset (Fin n) → K} {j : Fin n} {A1 A2 : Finset (Fin n)} : ∀ (l : List (List Int × K))
    (st : Option K × Option K), (∀ e ∈ l, ∃ A : Finset (Fin n), e.2 = sc j A ∧
      (e.1.toFinset = (key A).toFinset ∨ (e.1.toFinset = {-1} ∧ A = ∅))) →
    (∀ k, st.1 = some k → k = sc j A1) → (∀ k, st.2 = some k → k = sc j A2) →
    (∀ k, (lookLoop A1 A2 l st).1 = some k → k = sc j A1) ∧ (∀ k, (lookLoop A1 A2 l st).2 = some k → k = sc j A2) := by
  intro l
  induction l with
  | nil => intro st _ h1 h2; exact ⟨h1, h2⟩
  | cons e l ih =>
    intro st hl h1 h2
    obtain ⟨A, hA, hk⟩ := hl e (by simp)
    have g1 : ∀ k, (if rowIs A1 e.1 then some e.2 else st.1) = some k → k = sc j A1 := by
      intro k hk'
      split at hk'
      · rename_i hr
        simp only [rowIs, decide_eq_true_eq] at hr
        rcases hk with hk | hk
        · rw [hk] at hr
          rw [← key_inj hr, ← hA]; simpa using hk'.symm
        · rw [hk.1] at hr
          exact absurd hr.symm (key_ne_sentinel A1)
      · exact h1 k hk'
    have g2 : ∀ k, (if rowIs2 A2 e.1 then some e.2 else st.2) = some k → k = sc j A2 := by
      intro k hk'
      split at hk'
      · rename_i hr
        have hke : k = e.2 := by simpa using hk'.symm
        simp only [rowIs2, rowIs, Bool.or_eq_true, Bool.and_eq_true, decide_eq_true_eq] at hr
        rcases hk with hk | hk
        · rcases hr with hr | hr
          · rw [hk] at hr
            rw [hke, ← key_inj hr, ← hA]
          · rw [hk] at hr
            exact absurd hr.1 (key_ne_sentinel A)
        · rcases hr with hr | hr
          · rw [hk.1] at hr
            exact absurd hr.symm (key_ne_sentinel A2)
          · rw [hke, hA, hk.2, hr.2]
      · exact h2 k hk'
    rw [lookLoop]
    generalize (if rowIs A1 e.1 = true then some e.2 else st.1) = s1 at g1 ⊢
    generalize (if rowIs2 A2 e.1 = true then some e.2 else st.2) = s2 at g2 ⊢
    by_cases hb : (s1.isSome && s2.isSome) = true
    · rw [if_pos hb]; exact ⟨g1, g2⟩
    · rw [if_neg hb]; exact ih (s1, s2) (fun e he => hl e (by simp [he])) g1 g2

theorem RecOk.add {sc : Fin n → Finset (Fin n) → K} {r : Rec n K} (h : RecOk sc r) {j : Fin n} {row : List Int} {A : Finset (Fin n)}
    (hr : row.toFinset = (key A).toFinset ∨ (row.toFinset = {-1} ∧ A = ∅)) : RecOk sc (r.add j (row, sc j A)) := by
  intro v e he
  unfold Rec.add at he
  split at he
  · rename_i hv; subst hv
    rcases List.mem_append.1 he with he | he
    · exact h _ e he
    · rw [List.mem_singleton] at he
      subst he
      exact ⟨A, rfl, hr⟩
  · exact h v e he

/-- **C36** (record transparency). Whatever was recorded before, the change of score an operator is credited with is the
difference of the two local scores. -/
theorem C36_record_transparent {sc : Fin n → Finset (Fin n) → K} {r : Rec n K} (h : RecOk sc r) (j : Fin n) (A1 A2 : Finset (Fin n)) :
    (recDiff sc r j A1 A2).1 = sc j A1 - sc j A2 ∧ RecOk sc (recDiff sc r j A1 A2).2 := by
  obtain ⟨h1, h2⟩ := lookLoop_ok (sc := sc) (j := j) (A1 := A1) (A2 := A2) (r j) (none, none) (h j) (by simp) (by simp)
  unfold recDiff
  dsimp only
  constructor
  · have e1 : (lookLoop A1 A2 (r j) (none, none)).1.getD (sc j A1) = sc j A1 := by
      cases he : (lookLoop A1 A2 (r j) (none, none)).1 with
      | none => rfl
      | some k => exact h1 k he
    have e2 : (lookLoop A1 A2 (r j) (none, none)).2.getD (sc j A2) = sc j A2 := by
      cases he : (lookLoop A1 A2 (r j) (none, none)).2 with
      | none => rfl
      | some k => exact h2 k he
    rw [e1, e2]
  · have hr1 : RecOk sc (if (lookLoop A1 A2 (r j) (none, none)).1.isSome = true then r else r.add j (key A1, sc j A1)) := by
      split
      · exact h
      · exact h.add (Or.inl rfl)
    split
    · exact hr1
    · refine hr1.add ?_
      by_cases hA : A2 = ∅
      · simp [hA]
      · simp [hA]

/-! ## The scans -/

/-- `s` is the outcome of comparing operators: `V` are the operators that may be offered, `Q` those that have been, `δ` their
change of score. -/
structure ScanOk (sc : Fin n → Finset (Fin n) → K) (big : K) (V : Desc n → Prop) (δ : Desc n → K) (Q : Desc n → Prop)
    (s : Scan n K) : Prop where
  rows : RecOk sc s.record
  le : ∀ d, Q d → s.best ≤ δ d
  res : (s.desc = none ∧ s.best = big) ∨ ∃ d, s.desc = some d ∧ V d ∧ s.best = δ d
  big : s.best ≤ big

theorem ScanOk.weaken {sc : Fin n → Finset (Fin n) → K} {big : K} {V : Desc n → Prop} {δ : Desc n → K} {Q Q' : Desc n → Prop}
    {s : Scan n K} (h : ScanOk sc big V δ Q s) (hQ : ∀ d, Q' d → Q d) : ScanOk sc big V δ Q' s :=
  ⟨h.rows, fun d hd => h.le d (hQ d hd), h.res, h.big⟩

theorem ScanOk.offer {sc : Fin n → Finset (Fin n) → K} {big : K} {V : Desc n → Prop} {δ : Desc n → K} {Q : Desc n → Prop}
    {s : Scan n K} (h : ScanOk sc big V δ Q s) {cr : K × Rec n K} {d : Desc n} (hr : RecOk sc cr.2) (hd : cr.1 = δ d) (hv : V d) :
    ScanOk sc big V δ (fun e => Q e ∨ e = d) (s.offer cr d) := by
  unfold Scan.offer
  split
  · rename_i hlt
    refine ⟨hr, ?_, Or.inr ⟨d, rfl, hv, hd⟩, hlt.le.trans h.big⟩
    rintro e (he | rfl)
    · exact hlt.le.trans (h.le e he)
    · exact hd.le
  · rename_i hlt
    refine ⟨hr, ?_, h.res, h.big⟩
    rintro e (he | rfl)
    · exact h.le e he
    · rw [← hd]; exact not_lt.1 hlt

/-- fold over a list of cases, each of which extends the set of operators dealt with -/
theorem scanOk_fold {α : Type} {sc : Fin n → Finset (Fin n) → K} {big : K} {V : Desc n → Prop} {δ : Desc n → K}
    {f : Scan n K → α → Scan n K} {R : α → Desc n → Prop}
    (hf : ∀ a Q s, ScanOk sc big V δ Q s → ScanOk sc big V δ (fun e => Q e ∨ R a e) (f s a)) :
    ∀ (l : List α) (Q : Desc n → Prop) (s : Scan n K), ScanOk sc big V δ Q s →
      ScanOk sc big V δ (fun e => Q e ∨ ∃ a ∈ l, R a e) (l.foldl f s) := by
  intro l
  induction l with
  | nil => intro Q s h; exact h.weaken (by simp)
  | cons a l ih =>
    intro Q s h
    refine (ih _ _ (hf a Q s h)).weaken ?_
    intro d hd
    simp only [List.mem_cons, exists_eq_or_imp] at hd
    tauto

/-- The change of score of an Insert. -/
def insertDelta (sc : Fin n → Finset (Fin n) → K) (P : GG n) (d : Desc n) : K :=
  sc d.2.1 ((naN P d.1 d.2.1 ∪ d.2.2.toFinset) ∪ parN P d.2.1 ∪ {d.1}) - sc d.2.1 ((naN P d.1 d.2.1 ∪ d.2.2.toFinset) ∪ parN P d.2.1)

/-- A valid Insert in the sense of Chickering 2002, Definition 12 and Theorem 15. -/
structure ValidInsert (P : GG n) (maxP : Nat) (d : Desc n) : Prop where
  pair : insertPair P maxP d.1 d.2.1 = true
  sub : d.2.2 ∈ combinatorial (asc (undN P d.2.1 ∩ (Finset.univ \ adjN P d.1)))
  clique : ∀ a ∈ naN P d.1 d.2.1 ∪ d.2.2.toFinset, ∀ b ∈ naN P d.1 d.2.1 ∪ d.2.2.toFinset, a ≠ b → P.g a b ≠ .null
  path : ¬ ReflTransGen (fun a b => SemiP P a b ∧ b ∉ naN P d.1 d.2.1 ∪ d.2.2.toFinset) d.2.1 d.1

theorem insertTest2_iff {P : GG n} (hP : P.IsPdag) {i j : Fin n} (hij : P.g i j = .null) {t : Finset (Fin n)}
    (ht : t ⊆ undN P j ∩ (Finset.univ \ adjN P i)) :
    insertTest2 P i j t = some true ↔ ¬ ReflTransGen (fun a b => SemiP P a b ∧ b ∉ naN P i j ∪ t) j i := by
  have hi : i ∉ naN P i j ∪ t := by
    intro h
    have : i ∈ undN P j := by
      rcases Finset.mem_union.1 h with h | h
      · exact (Finset.mem_inter.1 h).1
      · exact (Finset.mem_inter.1 (ht h)).1
    simp only [undN, Finset.mem_filter, Finset.mem_univ, true_and] at this
    rw [hij] at this; cases this.1
  have hj : j ∉ naN P i j ∪ t := by
    intro h
    have : j ∈ undN P j := by
      rcases Finset.mem_union.1 h with h | h
      · exact (Finset.mem_inter.1 h).1
      · exact (Finset.mem_inter.1 (ht h)).1
    simp only [undN, Finset.mem_filter, Finset.mem_univ, true_and, hP.noLoop] at this
    cases this.1
  obtain ⟨b, h1, h2⟩ := C36_path_test (P := P) hP.noLoop hi hj
  unfold insertTest2
  rw [h1 _ (le_refl _), ← h2]
  simp

/-- the inner loop over the subsets, with its flags -/
theorem insertTry_fold {sc : Fin n → Finset (Fin n) → K} {big : K} {maxP : Nat} {P : GG n} (hP : P.IsPdag) {i j : Fin n}
    (hp : insertPair P maxP i j = true) : ∀ (l : List (List (Fin n))) (S : Flags n) (Q : Desc n → Prop) (s : Scan n K),
    (∀ t ∈ l, t ∈ combinatorial (asc (undN P j ∩ (Finset.univ \ adjN P i)))) →
    (∀ t, S t = 1 → ∃ u : List (Fin n), u.toFinset ⊆ t.toFinset ∧
      ¬ ReflTransGen (fun a b => SemiP P a b ∧ b ∉ naN P i j ∪ u.toFinset) j i) →
    (∀ t, 2 ≤ S t → ∃ u : List (Fin n), u.toFinset ⊆ t.toFinset ∧ checkClique P (naN P i j ∪ u.toFinset) = false) →
    ScanOk sc big (ValidInsert P maxP) (insertDelta sc P) Q s →
    ScanOk sc big (ValidInsert P maxP) (insertDelta sc P) (fun e => Q e ∨ ∃ t ∈ l, e = (i, j, t) ∧ ValidInsert P maxP (i, j, t))
      (l.foldl (insertTry sc P i j) (S, s)).2 := by
  have hij : P.g i j = .null := by
    simp only [insertPair, Bool.and_eq_true, beq_iff_eq] at hp; exact hp.1.1.1
  intro l
  induction l with
  | nil => intro S Q s _ _ _ h; exact h.weaken (by simp)
  | cons t l ih =>
    intro S Q s hl h1 h2 h
    have ht := hl t (by simp)
    have hl' : ∀ t ∈ l, t ∈ combinatorial (asc (undN P j ∩ (Finset.univ \ adjN P i))) := fun t ht => hl t (by simp [ht])
    have hsub := (subset_of_combinatorial ht).2
    have hcl := checkClique_iff hP (naN P i j ∪ t.toFinset)
    have mono : ∀ {u : List (Fin n)}, u.toFinset ⊆ t.toFinset →
        ¬ ReflTransGen (fun a b => SemiP P a b ∧ b ∉ naN P i j ∪ u.toFinset) j i →
        ¬ ReflTransGen (fun a b => SemiP P a b ∧ b ∉ naN P i j ∪ t.toFinset) j i := by
      intro u hu hn hr
      exact hn (ReflTransGen.mono (fun a b hab => ⟨hab.1, fun hb => hab.2 (Finset.union_subset_union_right hu hb)⟩) j i hr)
    rw [List.foldl_cons]
    have skip : ∀ {s' : Flags n × Scan n K}, ¬ ValidInsert P maxP (i, j, t) →
        ScanOk sc big (ValidInsert P maxP) (insertDelta sc P)
          (fun e => Q e ∨ ∃ t ∈ l, e = (i, j, t) ∧ ValidInsert P maxP (i, j, t)) (l.foldl (insertTry sc P i j) s').2 →
        ScanOk sc big (ValidInsert P maxP) (insertDelta sc P)
          (fun e => Q e ∨ ∃ t' ∈ t :: l, e = (i, j, t') ∧ ValidInsert P maxP (i, j, t')) (l.foldl (insertTry sc P i j) s').2 := by
      intro s' hnv hs'
      refine hs'.weaken ?_
      rintro d (hd | ⟨t', ht', rfl, hv⟩)
      · exact Or.inl hd
      · rcases List.mem_cons.1 ht' with rfl | ht'
        · exact absurd hv hnv
        · exact Or.inr ⟨t', ht', rfl, hv⟩
    by_cases hflag : S t < 2
    · by_cases hc : insertTest1 P i j t.toFinset = true
      · by_cases hv2 : (if S t = 0 then insertTest2 P i j t.toFinset == some true else true) = true
        · have e : insertTry sc P i j (S, s) t =
              (S.mark t 1, s.offer (insertScore sc P s.record i j t.toFinset) (i, j, t)) := by
            unfold insertTry; dsimp only; rw [if_pos hflag, if_pos hc, if_pos hv2]
          have hpath : ¬ ReflTransGen (fun a b => SemiP P a b ∧ b ∉ naN P i j ∪ t.toFinset) j i := by
            by_cases h0 : S t = 0
            · rw [if_pos h0, beq_iff_eq] at hv2
              exact (insertTest2_iff hP hij hsub).1 hv2
            · obtain ⟨u, hu, hn⟩ := h1 t (by omega)
              exact mono hu hn
          have hval : ValidInsert P maxP (i, j, t) := ⟨hp, ht, hcl.1 hc, hpath⟩
          rw [e]
          obtain ⟨r1, r2⟩ := C36_record_transparent h.rows j ((naN P i j ∪ t.toFinset) ∪ parN P j ∪ {i})
            ((naN P i j ∪ t.toFinset) ∪ parN P j)
          have ho := h.offer (cr := insertScore sc P s.record i j t.toFinset) (d := (i, j, t)) r2 r1 hval
          refine (ih _ _ _ hl' ?_ ?_ ho).weaken ?_
          · intro t' ht'
            unfold Flags.mark at ht'
            split at ht'
            · rename_i hm; exact ⟨t, subsetInclude_sub hm, hpath⟩
            · exact h1 t' ht'
          · intro t' ht'
            unfold Flags.mark at ht'
            split at ht'
            · omega
            · exact h2 t' ht'
          · rintro d (hd | ⟨t', ht', rfl, hv⟩)
            · exact Or.inl (Or.inl hd)
            · rcases List.mem_cons.1 ht' with rfl | ht'
              · exact Or.inl (Or.inr rfl)
              · exact Or.inr ⟨t', ht', rfl, hv⟩
        · have e : insertTry sc P i j (S, s) t = (S, s) := by
            unfold insertTry; dsimp only; rw [if_pos hflag, if_pos hc, if_neg hv2]
          rw [e]
          refine skip ?_ (ih _ _ _ hl' h1 h2 h)
          intro hv
          apply hv2
          by_cases h0 : S t = 0
          · rw [if_pos h0, beq_iff_eq]
            exact (insertTest2_iff hP hij hsub).2 hv.path
          · rw [if_neg h0]
      · have e : insertTry sc P i j (S, s) t = (S.mark t 2, s) := by
          unfold insertTry; dsimp only; rw [if_pos hflag, if_neg hc]
        rw [e]
        refine skip (fun hv => hc (hcl.2 hv.clique)) (ih _ _ _ hl' ?_ ?_ h)
        · intro t' ht'
          unfold Flags.mark at ht'
          split at ht'
          · omega
          · exact h1 t' ht'
        · intro t' ht'
          unfold Flags.mark at ht'
          split at ht'
          · rename_i hm; exact ⟨t, subsetInclude_sub hm, by simpa [insertTest1] using hc⟩
          · exact h2 t' ht'
    · have e : insertTry sc P i j (S, s) t = (S, s) := by
        unfold insertTry; dsimp only; rw [if_neg hflag]
      rw [e]
      refine skip ?_ (ih _ _ _ hl' h1 h2 h)
      intro hv
      obtain ⟨u, hu, hf⟩ := h2 t (by omega)
      have : checkClique P (naN P i j ∪ u.toFinset) = true := by
        rw [checkClique_iff hP]
        intro a ha b hb
        exact hv.clique a (Finset.union_subset_union_right hu ha) b (Finset.union_subset_union_right hu hb)
      rw [hf] at this; cases this

/-- The forward scan finds the best valid Insert: pruning by flags and the record of scores change nothing. -/
theorem insertScan_ok {sc : Fin n → Finset (Fin n) → K} {big : K} {maxP : Nat} {P : GG n} (hP : P.IsPdag) {r : Rec n K}
    (hr : RecOk sc r) : ScanOk sc big (ValidInsert P maxP) (insertDelta sc P) (ValidInsert P maxP)
      (insertScan sc maxP P ⟨r, big, none⟩) := by
  have h0 : ScanOk sc big (ValidInsert P maxP) (insertDelta sc P) (fun _ => False) ⟨r, big, none⟩ :=
    ⟨hr, fun d hd => hd.elim, Or.inl ⟨rfl, rfl⟩, le_refl _⟩
  unfold insertScan
  refine (scanOk_fold (R := fun i e => e.1 = i ∧ ValidInsert P maxP e) (fun i Q s h => ?_) (List.finRange n) _ _ h0).weaken
    (fun d hd => Or.inr ⟨d.1, List.mem_finRange _, rfl, hd⟩)
  refine (scanOk_fold (R := fun j e => e.1 = i ∧ e.2.1 = j ∧ ValidInsert P maxP e) (fun j Q s h => ?_) (List.finRange n) _ _ h).weaken
    (fun d hd => hd.imp id fun hd => ⟨d.2.1, List.mem_finRange _, hd.1, rfl, hd.2⟩)
  by_cases hp : insertPair P maxP i j = true
  · rw [if_pos hp]
    refine (insertTry_fold hP hp _ (fun _ => 0) Q s (fun t ht => ht) (by simp) (by simp) h).weaken ?_
    rintro ⟨i', j', t⟩ (hd | ⟨rfl, rfl, hv⟩)
    · exact Or.inl hd
    · exact Or.inr ⟨t, hv.sub, rfl, hv⟩
  · rw [if_neg hp]
    refine h.weaken ?_
    rintro ⟨i', j', t⟩ (hd | ⟨rfl, rfl, hv⟩)
    · exact hd
    · exact absurd hv.pair hp

/-- The change of score of a Delete. -/
def deleteDelta (sc : Fin n → Finset (Fin n) → K) (P : GG n) (d : Desc n) : K :=
  sc d.2.1 (((naN P d.1 d.2.1 \ d.2.2.toFinset) ∪ (parN P d.2.1 ∪ {d.1})) \ {d.1}) -
    sc d.2.1 ((naN P d.1 d.2.1 \ d.2.2.toFinset) ∪ (parN P d.2.1 ∪ {d.1}))

/-- A valid Delete in the sense of Chickering 2002, Definition 13 and Theorem 17. -/
structure ValidDelete (P : GG n) (d : Desc n) : Prop where
  pair : deletePair P d.1 d.2.1 = true
  sub : d.2.2 ∈ combinatorial (asc (undN P d.2.1 ∩ adjN P d.1))
  clique : ∀ a ∈ naN P d.1 d.2.1 \ d.2.2.toFinset, ∀ b ∈ naN P d.1 d.2.1 \ d.2.2.toFinset, a ≠ b → P.g a b ≠ .null

theorem deleteTry_fold {sc : Fin n → Finset (Fin n) → K} {big : K} {P : GG n} (hP : P.IsPdag) {i j : Fin n}
    (hp : deletePair P i j = true) : ∀ (l : List (List (Fin n))) (S : Flags n) (Q : Desc n → Prop) (s : Scan n K),
    (∀ t ∈ l, t ∈ combinatorial (asc (undN P j ∩ adjN P i))) →
    (∀ t, S t ≠ 1 → ∃ u : List (Fin n), u.toFinset ⊆ t.toFinset ∧ checkClique P (naN P i j \ u.toFinset) = true) →
    ScanOk sc big (ValidDelete P) (deleteDelta sc P) Q s →
    ScanOk sc big (ValidDelete P) (deleteDelta sc P) (fun e => Q e ∨ ∃ t ∈ l, e = (i, j, t) ∧ ValidDelete P (i, j, t))
      (l.foldl (deleteTry sc P i j) (S, s)).2 := by
  intro l
  induction l with
  | nil => intro S Q s _ _ h; exact h.weaken (by simp)
  | cons t l ih =>
    intro S Q s hl h1 h
    have ht := hl t (by simp)
    have hl' : ∀ t ∈ l, t ∈ combinatorial (asc (undN P j ∩ adjN P i)) := fun t ht => hl t (by simp [ht])
    have hcl := checkClique_iff hP (naN P i j \ t.toFinset)
    rw [List.foldl_cons]
    obtain ⟨r1, r2⟩ := C36_record_transparent h.rows j (((naN P i j \ t.toFinset) ∪ (parN P j ∪ {i})) \ {i})
      ((naN P i j \ t.toFinset) ∪ (parN P j ∪ {i}))
    have take : ∀ S', (∀ t, S' t ≠ 1 → ∃ u : List (Fin n), u.toFinset ⊆ t.toFinset ∧
        checkClique P (naN P i j \ u.toFinset) = true) → ValidDelete P (i, j, t) →
        ScanOk sc big (ValidDelete P) (deleteDelta sc P)
          (fun e => Q e ∨ ∃ t' ∈ t :: l, e = (i, j, t') ∧ ValidDelete P (i, j, t'))
          (l.foldl (deleteTry sc P i j) (S', s.offer (deleteScore sc P s.record i j t.toFinset) (i, j, t))).2 := by
      intro S' hS' hval
      have ho := h.offer (cr := deleteScore sc P s.record i j t.toFinset) (d := (i, j, t)) r2 r1 hval
      refine (ih _ _ _ hl' hS' ho).weaken ?_
      rintro d (hd | ⟨t', ht', rfl, hv⟩)
      · exact Or.inl (Or.inl hd)
      · rcases List.mem_cons.1 ht' with rfl | ht'
        · exact Or.inl (Or.inr rfl)
        · exact Or.inr ⟨t', ht', rfl, hv⟩
    by_cases hflag : S t = 1
    · by_cases hc : deleteTest P i j t.toFinset = true
      · have e : deleteTry sc P i j (S, s) t =
            (S.mark t 2, s.offer (deleteScore sc P s.record i j t.toFinset) (i, j, t)) := by
          unfold deleteTry; dsimp only; rw [if_pos hflag, if_pos hc]
        rw [e]
        refine take _ ?_ ⟨hp, ht, hcl.1 hc⟩
        intro t' ht'
        unfold Flags.mark at ht'
        split at ht'
        · rename_i hm; exact ⟨t, subsetInclude_sub hm, hc⟩
        · exact h1 t' ht'
      · have e : deleteTry sc P i j (S, s) t = (S, s) := by
          unfold deleteTry; dsimp only; rw [if_pos hflag, if_neg hc]
        rw [e]
        refine (ih _ _ _ hl' h1 h).weaken ?_
        rintro d (hd | ⟨t', ht', rfl, hv⟩)
        · exact Or.inl hd
        · rcases List.mem_cons.1 ht' with rfl | ht'
          · exact absurd (hcl.2 hv.clique) hc
          · exact Or.inr ⟨t', ht', rfl, hv⟩
    · have e : deleteTry sc P i j (S, s) t = (S, s.offer (deleteScore sc P s.record i j t.toFinset) (i, j, t)) := by
        unfold deleteTry; dsimp only; rw [if_neg hflag]
      rw [e]
      obtain ⟨u, hu, hcu⟩ := h1 t hflag
      refine take _ h1 ⟨hp, ht, ?_⟩
      intro a ha b hb
      exact (checkClique_iff hP _).1 hcu a (Finset.sdiff_subset_sdiff (Finset.Subset.refl _) hu ha) b
        (Finset.sdiff_subset_sdiff (Finset.Subset.refl _) hu hb)

/-- The backward scan finds the best valid Delete. -/
theorem deleteScan_ok {sc : Fin n → Finset (Fin n) → K} {big : K} {P : GG n} (hP : P.IsPdag) {r : Rec n K}
    (hr : RecOk sc r) : ScanOk sc big (ValidDelete P) (deleteDelta sc P) (ValidDelete P)
      (deleteScan sc P ⟨r, big, none⟩) := by
  have h0 : ScanOk sc big (ValidDelete P) (deleteDelta sc P) (fun _ => False) ⟨r, big, none⟩ :=
    ⟨hr, fun d hd => hd.elim, Or.inl ⟨rfl, rfl⟩, le_refl _⟩
  unfold deleteScan
  refine (scanOk_fold (R := fun i e => e.1 = i ∧ ValidDelete P e) (fun i Q s h => ?_) (List.finRange n) _ _ h0).weaken
    (fun d hd => Or.inr ⟨d.1, List.mem_finRange _, rfl, hd⟩)
  refine (scanOk_fold (R := fun j e => e.1 = i ∧ e.2.1 = j ∧ ValidDelete P e) (fun j Q s h => ?_) (List.finRange n) _ _ h).weaken
    (fun d hd => hd.imp id fun hd => ⟨d.2.1, List.mem_finRange _, hd.1, rfl, hd.2⟩)
  by_cases hp : deletePair P i j = true
  · rw [if_pos hp]
    refine (deleteTry_fold hP hp _ (fun _ => 1) Q s (fun t ht => ht) (by simp) h).weaken ?_
    rintro ⟨i', j', t⟩ (hd | ⟨rfl, rfl, hv⟩)
    · exact Or.inl hd
    · exact Or.inr ⟨t, hv.sub, rfl, hv⟩
  · rw [if_neg hp]
    refine h.weaken ?_
    rintro ⟨i', j', t⟩ (hd | ⟨rfl, rfl, hv⟩)
    · exact hd
    · exact absurd hv.pair hp

end Ges
end CL
