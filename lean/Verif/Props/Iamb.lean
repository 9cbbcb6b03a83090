import Verif.Model.Iamb
import Verif.Proofs.DSep
import Mathlib.Data.List.Perm.Subperm
import Mathlib.Order.Nat
import Mathlib.Data.List.Induction

/-!
# C49: IAMB Markov blankets
-/
namespace Spec
variable {V : Type}

/-- The Markov blanket of `t` in the DAG `E`: parents, children and other parents of children. -/
def MarkovBlanket (E : V → V → Prop) (t x : V) : Prop := x ≠ t ∧ (E x t ∨ E t x ∨ ∃ c, E t c ∧ E x c)

end Spec

namespace CL
open Spec Iamb
variable {n : Nat} {P : Type} [LinearOrder P]

/-! ## The forward phase -/

theorem bestVar_spec (T : Fin n → Fin n → List (Fin n) → P) (alpha : P) (t : Fin n) (mb vars : List (Fin n)) :
    (bestVar T alpha t mb vars = none → ∀ x ∈ vars, alpha < T t x mb) ∧
    ∀ b, bestVar T alpha t mb vars = some b → b.2 ∈ vars ∧ b.1 = T t b.2 mb ∧ T t b.2 mb ≤ alpha ∧
      ∀ x ∈ vars, T t b.2 mb ≤ T t x mb := by
  unfold bestVar
  induction vars using List.reverseRecOn with
  | nil => simp
  | append_singleton vars x ih =>
    rw [List.foldl_append, List.foldl_cons, List.foldl_nil]
    generalize List.foldl _ none vars = r at ih
    obtain ⟨ih1, ih2⟩ := ih
    cases r with
    | none =>
      by_cases hx : T t x mb ≤ alpha
      · simp only [hx, Option.all_none, and_self, if_true]
        refine ⟨by simp, ?_⟩
        rintro b hb
        injection hb with hb
        subst hb
        refine ⟨by simp, rfl, hx, fun y hy => ?_⟩
        rw [List.mem_append, List.mem_singleton] at hy
        rcases hy with hy | rfl
        · exact le_of_lt (lt_of_le_of_lt hx (ih1 rfl y hy))
        · exact le_refl _
      · simp only [hx, false_and, if_false]
        refine ⟨fun _ y hy => ?_, by simp⟩
        rw [List.mem_append, List.mem_singleton] at hy
        rcases hy with hy | rfl
        · exact ih1 rfl y hy
        · exact not_le.1 hx
    | some c =>
      obtain ⟨h1, h2, h3, h4⟩ := ih2 c rfl
      by_cases hx : T t x mb ≤ alpha ∧ T t x mb < c.1
      · simp only [Option.all_some, decide_eq_true_eq, hx, and_self, if_true]
        refine ⟨by simp, ?_⟩
        rintro b hb
        injection hb with hb
        subst hb
        refine ⟨by simp, rfl, hx.1, fun y hy => ?_⟩
        rw [List.mem_append, List.mem_singleton] at hy
        rcases hy with hy | rfl
        · rw [h2] at hx; exact le_of_lt (lt_of_lt_of_le hx.2 (h4 y hy))
        · exact le_refl _
      · simp only [Option.all_some, decide_eq_true_eq, hx, if_false]
        refine ⟨by simp, ?_⟩
        rintro b hb
        injection hb with hb
        subst hb
        refine ⟨by simp [h1], h2, h3, fun y hy => ?_⟩
        rw [List.mem_append, List.mem_singleton] at hy
        rcases hy with hy | rfl
        · exact h4 y hy
        · rw [not_and_or, not_le, not_lt, h2] at hx
          rcases hx with hx | hx
          · exact le_of_lt (lt_of_le_of_lt h3 hx)
          · exact hx

theorem mem_candidates (t : Fin n) (mb : List (Fin n)) (x : Fin n) : x ∈ candidates t mb ↔ x ≠ t ∧ x ∉ mb := by
  simp [candidates]

/-- The forward phase ends, for every test, with a duplicate-free list of variables other than the target: each was dependent
given the ones before it (with the smallest p-value), and nothing outside is dependent given all of them. -/
theorem forward_spec (T : Fin n → Fin n → List (Fin n) → P) (alpha : P) (t : Fin n) : ∀ (k : Nat) (mb : List (Fin n)), mb.Nodup →
    t ∉ mb → n - mb.length = k → (∀ p x s, mb = p ++ x :: s → T t x p ≤ alpha) → ∃ B, (∀ f, k < f → forward T alpha t f mb = some B) ∧ B.Nodup ∧ t ∉ B ∧
      (∀ x, x ≠ t → x ∉ B → alpha < T t x B) ∧ (∀ p x s, B = p ++ x :: s → T t x p ≤ alpha) := by
  intro k
  induction k using Nat.strong_induction_on with
  | _ k ih =>
    intro mb hn ht hk hpre
    obtain ⟨h1, h2⟩ := bestVar_spec T alpha t mb (candidates t mb)
    cases hb : bestVar T alpha t mb (candidates t mb) with
    | none =>
      refine ⟨mb, fun f hf => ?_, hn, ht, fun x hx hxm => h1 hb x ((mem_candidates t mb x).2 ⟨hx, hxm⟩), hpre⟩
      obtain ⟨f, rfl⟩ : ∃ g, f = g + 1 := ⟨f - 1, by omega⟩
      simp [forward, hb]
    | some b =>
      obtain ⟨hm, -, hp, -⟩ := h2 b hb
      rw [mem_candidates] at hm
      have hn' : (mb ++ [b.2]).Nodup := by
        rw [List.nodup_append]
        refine ⟨hn, by simp, ?_⟩
        rintro a ha c hc rfl
        rw [List.mem_singleton] at hc
        exact hm.2 (hc ▸ ha)
      have ht' : t ∉ mb ++ [b.2] := by
        rw [List.mem_append, List.mem_singleton]
        rintro (h | h)
        · exact ht h
        · exact hm.1 h.symm
      have hlen : (t :: (mb ++ [b.2])).length ≤ n := by
        have : (t :: (mb ++ [b.2])).Nodup := List.nodup_cons.2 ⟨ht', hn'⟩
        have := (this.subperm (l₂ := List.finRange n) fun x _ => List.mem_finRange x).length_le
        simpa using this
      simp only [List.length_cons, List.length_append, List.length_nil] at hlen
      obtain ⟨B, hB, hrest⟩ := ih (n - (mb ++ [b.2]).length) (by simp; omega) (mb ++ [b.2]) hn' ht' rfl (by
        intro p x s he
        rcases List.append_eq_append_iff.1 he with ⟨u, hu1, hu2⟩ | ⟨u, hu1, hu2⟩
        · cases u with
          | nil => simp at hu1 hu2; rw [← hu2.1, hu1]; exact hp
          | cons v u =>
            rw [List.cons_append] at hu2
            injection hu2 with _ hu2
            simp at hu2
        · cases u with
          | nil => simp at hu1 hu2; rw [hu2.1, ← hu1]; exact hp
          | cons v u =>
            rw [List.cons_append] at hu2
            injection hu2 with hv hu2
            subst hv
            exact hpre p _ u hu1)
      refine ⟨B, fun f hf => ?_, hrest⟩
      obtain ⟨f, rfl⟩ : ∃ g, f = g + 1 := ⟨f - 1, by omega⟩
      simp only [forward, hb, Option.elim_some]
      exact hB f (by simp; omega)

/-! ## The backward phase -/

theorem backStep_sub (T : Fin n → Fin n → List (Fin n) → P) (alpha : P) (t : Fin n) (mb : List (Fin n)) (x : Fin n) :
    backStep T alpha t mb x ⊆ mb := by
  unfold backStep; split
  · exact List.erase_subset
  · exact fun _ h => h

/-- What the backward phase does: members of `l` are kept or dropped according to the test given the others present at
that time; everything else stays. -/
theorem backward_spec (T : Fin n → Fin n → List (Fin n) → P) (alpha : P) (t : Fin n) : ∀ (l mb : List (Fin n)), mb.Nodup → l.Nodup →
    let R := l.foldl (backStep T alpha t) mb
    R.Nodup ∧ R ⊆ mb ∧ (∀ x ∈ mb, x ∉ l → x ∈ R) ∧
      (∀ x ∈ l, x ∈ mb → ∃ M, M ⊆ mb ∧ R ⊆ x :: M ∧ x ∉ M ∧ (x ∈ R ↔ T t x M ≤ alpha)) := by
  intro l
  induction l with
  | nil => intro mb hn _; exact ⟨hn, fun _ h => h, fun x h _ => h, by simp⟩
  | cons y l ih =>
    intro mb hn hl
    rw [List.nodup_cons] at hl
    have hn' : (backStep T alpha t mb y).Nodup := by
      unfold backStep; split
      · exact hn.erase y
      · exact hn
    obtain ⟨i1, i2, i3, i4⟩ := ih (backStep T alpha t mb y) hn' hl.2
    rw [show (y :: l).foldl (backStep T alpha t) mb = l.foldl (backStep T alpha t) (backStep T alpha t mb y) from rfl]
    have hsub := backStep_sub T alpha t mb y
    refine ⟨i1, fun a ha => hsub (i2 ha), fun x hx hxl => ?_, fun x hx hxm => ?_⟩
    · rw [List.mem_cons, not_or] at hxl
      refine i3 x ?_ hxl.2
      unfold backStep; split
      · exact (List.mem_erase_of_ne hxl.1).2 hx
      · exact hx
    · by_cases hxy : x = y
      · subst hxy
        refine ⟨mb.filter (· ≠ x), List.filter_subset' _, ?_, by simp, ?_⟩
        · intro a ha
          have := hsub (i2 ha)
          by_cases hax : a = x
          · simp [hax]
          · simp [hax, this]
        · constructor
          · intro hR
            have := i2 hR
            unfold backStep at this
            split at this
            · exact absurd this (by rw [hn.mem_erase_iff]; simp)
            · rename_i hc; exact not_lt.1 hc
          · intro hle
            refine i3 x ?_ hl.1
            unfold backStep
            rw [if_neg (not_lt.2 hle)]
            exact hxm
      · have hxl : x ∈ l := by
          rcases List.mem_cons.1 hx with h | h
          · exact absurd h hxy
          · exact h
        have hxb : x ∈ backStep T alpha t mb y := by
          unfold backStep; split
          · exact (List.mem_erase_of_ne hxy).2 hxm
          · exact hxm
        obtain ⟨M, m1, m2, m3, m4⟩ := i4 x hxl hxb
        exact ⟨M, fun a ha => hsub (m1 ha), m2, m3, m4⟩

/-- **C49.** For every test, level and target, `iamb` terminates. Its result has no repetition and does not contain the
target. There is a set `B` (found by the forward phase) such that every variable outside `B` is independent of the target given
`B`; and each member of `B` was tested once more, given a set `M` that contains every other member of the result, and is in the
result exactly if this test found it dependent. -/
theorem C49_iamb (T : Fin n → Fin n → List (Fin n) → P) (alpha : P) (t : Fin n) : ∃ R B : List (Fin n),
    (∀ fuel, n < fuel → iamb T alpha t fuel = some R) ∧ R.Nodup ∧ t ∉ R ∧ R ⊆ B ∧ t ∉ B ∧
    (∀ x, x ≠ t → x ∉ B → alpha < T t x B) ∧
    ∀ x ∈ B, ∃ M, M ⊆ B ∧ R ⊆ x :: M ∧ x ∉ M ∧ (x ∈ R ↔ T t x M ≤ alpha) := by
  obtain ⟨B, hB, hn, ht, hout, -⟩ := forward_spec T alpha t (n - ([] : List (Fin n)).length) [] (by simp) (by simp) rfl (by simp)
  obtain ⟨h1, h2, -, h4⟩ := backward_spec T alpha t B B hn hn
  exact ⟨_, B, fun fuel hf => by simp [iamb, hB fuel (by simpa using hf)], h1, fun h => ht (h2 h), h2, ht, hout, fun x hx => h4 x hx hx⟩

/-! ## With a d-separation oracle -/

/-- The test answers d-separation queries for the DAG `E` correctly. -/
def IambOracle (E : Fin n → Fin n → Prop) (T : Fin n → Fin n → List (Fin n) → P) (alpha : P) : Prop :=
  ∀ x y S, x ≠ y → x ∉ S → y ∉ S → (alpha < T x y S ↔ DSep E {v | v ∈ S} x y)

theorem dsep_of_blanket {E : Fin n → Fin n → Prop} (hac : Acyclic E) {t x : Fin n} {Z : Set (Fin n)} (htx : x ≠ t)
    (hZ : ∀ y, MarkovBlanket E t y → y ∈ Z) (hx : x ∉ Z) : DSep E Z t x := by
  rintro ⟨l, hn, hh, hl, ha⟩
  match l, hn, hh, hl, ha with
  | [], _, hh, _, _ => cases hh
  | [a], _, hh, hl, _ =>
    simp at hh hl; exact htx (hl.symm.trans hh)
  | [a, b], _, hh, hl, ha =>
    simp at hh hl; subst hh hl
    rcases activeSeq_pair_iff.1 ha with h | h
    · exact hx (hZ _ ⟨htx, Or.inr (Or.inl h)⟩)
    · exact hx (hZ _ ⟨htx, Or.inl h⟩)
  | a :: b :: c :: l, hn, hh, hl, ha =>
    simp at hh; subst hh
    obtain ⟨h1, h2, h3⟩ := activeSeq_cons.1 ha
    have hab : a ≠ b := by rintro rfl; simp at hn
    have hac' : c ≠ a := by rintro rfl; simp at hn
    have hb : b ∈ Z := hZ b ⟨hab.symm, h1.elim (fun h => Or.inr (Or.inl h)) Or.inl⟩
    have hcol : Collider E a b c := by
      by_contra hc; exact h2.2 hc hb
    have hc : c ∈ Z := hZ c ⟨hac', Or.inr (Or.inr ⟨b, hcol.1, hcol.2⟩)⟩
    cases l with
    | nil => simp at hl; subst hl; exact hx hc
    | cons d l =>
      obtain ⟨h4, h5, -⟩ := activeSeq_cons.1 h3
      refine h5.2 (fun hcc => ?_) hc
      exact hac.asymm hcol.2 hcc.1

theorem dconn_of_blanket {E : Fin n → Fin n → Prop} (hac : Acyclic E) {t x : Fin n} {Z : Set (Fin n)}
    (hm : MarkovBlanket E t x) (hch : ∀ c, E t c → c ≠ x → c ∈ Z) : ¬ DSep E Z t x := by
  intro hs
  obtain ⟨hne, h | h | ⟨c, h1, h2⟩⟩ := hm
  · exact hs (dConn_of_adj hne.symm (Or.inr h))
  · exact hs (dConn_of_adj hne.symm (Or.inl h))
  · have hct : t ≠ c := by rintro rfl; exact hac.irrefl _ h1
    have hcx : c ≠ x := by rintro rfl; exact hac.irrefl _ h2
    have hc := hch c h1 hcx
    exact hs (dConn_triple hct hcx hne.symm (Or.inl h1) (Or.inr h2)
      ⟨fun _ => ⟨c, hc, .refl⟩, fun hn => absurd ⟨h1, h2⟩ hn⟩)

/-- **C49.** If the test answers d-separation queries for a DAG correctly, `iamb` returns exactly the Markov blanket of the
target: its parents, children and the other parents of its children. -/
theorem C49_oracle_exact (E : Fin n → Fin n → Prop) (hac : Acyclic E) (T : Fin n → Fin n → List (Fin n) → P) (alpha : P)
    (ho : IambOracle E T alpha) (t : Fin n) : ∃ R, (∀ fuel, n < fuel → iamb T alpha t fuel = some R) ∧ R.Nodup ∧
      ∀ x, x ∈ R ↔ MarkovBlanket E t x := by
  obtain ⟨R, B, hrun, hn, htR, hRB, htB, hout, hback⟩ := C49_iamb T alpha t
  -- children and parents are in `B`
  have hchB : ∀ c, Adj E t c → c ∈ B := by
    intro c hc
    by_contra hcB
    have hne := (hac.ne_of_adj hc).symm
    exact (ho t c B hne.symm htB hcB).1 (hout c hne hcB) (dConn_of_adj hne.symm hc)
  have hMB : ∀ x, MarkovBlanket E t x → x ∈ B := by
    intro x hx
    by_contra hxB
    exact dconn_of_blanket hac hx (fun c hc _ => hchB c (Or.inl hc)) ((ho t x B hx.1.symm htB hxB).1 (hout x hx.1 hxB))
  -- adjacent variables are never dropped
  have hchR : ∀ c, Adj E t c → c ∈ R := by
    intro c hc
    have hne := (hac.ne_of_adj hc).symm
    obtain ⟨M, m1, m2, m3, m4⟩ := hback c (hchB c hc)
    refine m4.2 (not_lt.1 fun hlt => ?_)
    exact (ho t c M hne.symm (fun h => htB (m1 h)) m3).1 hlt (dConn_of_adj hne.symm hc)
  have hMR : ∀ x, MarkovBlanket E t x → x ∈ R := by
    intro x hx
    obtain ⟨M, m1, m2, m3, m4⟩ := hback x (hMB x hx)
    refine m4.2 (not_lt.1 fun hlt => ?_)
    refine dconn_of_blanket hac hx (fun c hc hcx => ?_) ((ho t x M hx.1.symm (fun h => htB (m1 h)) m3).1 hlt)
    rcases List.mem_cons.1 (m2 (hchR c (Or.inl hc))) with h | h
    · exact absurd h hcx
    · exact h
  refine ⟨R, hrun, hn, fun x => ⟨fun hx => ?_, hMR x⟩⟩
  by_contra hnm
  have hxt : x ≠ t := by rintro rfl; exact htR hx
  obtain ⟨M, m1, m2, m3, m4⟩ := hback x (hRB hx)
  have hd : DSep E {v | v ∈ M} t x := dsep_of_blanket hac hxt (fun y hy => by
    rcases List.mem_cons.1 (m2 (hMR y hy)) with h | h
    · subst h; exact absurd hy hnm
    · exact h) m3
  have hlt := (ho t x M hxt.symm (fun h => htB (m1 h)) m3).2 hd
  exact absurd (m4.1 hx) (not_le.2 hlt)

open Classical in
/-- Every DAG has such an oracle, for instance on three nodes with `0 → 2 ← 1`, where the blanket of 0 contains the child 2 and
the other parent 1. -/
example : let E : Fin 3 → Fin 3 → Prop := fun a b => a ≠ 2 ∧ b = 2
    Acyclic E ∧ IambOracle E (fun x y S => if DSep E {v | v ∈ S} x y then (1 : Nat) else 0) 0 ∧
      MarkovBlanket E 0 1 ∧ MarkovBlanket E 0 2 := by
  intro E
  refine ⟨fun x h => ?_, fun x y S _ _ _ => by dsimp only; split <;> simp_all, ?_, ?_⟩
  · have : ∀ a b, Relation.TransGen E a b → a ≠ 2 ∧ b = 2 := by
      intro a b hab
      induction hab with
      | single h => exact h
      | tail _ h ih => exact ⟨ih.1, h.2⟩
    exact (this x x h).1 (this x x h).2
  · exact ⟨by decide, Or.inr (Or.inr ⟨2, ⟨by decide, rfl⟩, ⟨by decide, rfl⟩⟩)⟩
  · exact ⟨by decide, Or.inr (Or.inl ⟨by decide, rfl⟩)⟩

/-! ## The network -/

theorem rawNetwork_eq (mb : Fin n → List (Fin n)) (vars : List (Fin n)) (a b : Fin n) :
    rawNetwork mb vars a b = true ↔ (a ∈ vars ∧ b ∈ mb a) ∨ (b ∈ vars ∧ a ∈ mb b) := by
  unfold rawNetwork
  induction vars using List.reverseRecOn with
  | nil => simp
  | append_singleton vars i ih =>
    rw [List.foldl_append, List.foldl_cons, List.foldl_nil]
    split
    · simp only [Bool.or_eq_true, ih, Bool.and_eq_true, beq_iff_eq, decide_eq_true_eq, List.mem_append, List.mem_singleton]
      constructor
      · rintro ((h | ⟨rfl, h⟩) | ⟨h, rfl⟩)
        · tauto
        · exact Or.inl ⟨Or.inr rfl, h⟩
        · exact Or.inr ⟨Or.inr rfl, h⟩
      · rintro (⟨h | rfl, h'⟩ | ⟨h | rfl, h'⟩) <;> tauto
    · rename_i hlen
      have hnil : mb i = [] := List.length_eq_zero_iff.1 (by omega)
      rw [ih]
      simp only [List.mem_append, List.mem_singleton]
      constructor
      · rintro (⟨h, h'⟩ | ⟨h, h'⟩) <;> tauto
      · rintro (⟨h | rfl, h'⟩ | ⟨h | rfl, h'⟩)
        · tauto
        · rw [hnil] at h'; cases h'
        · tauto
        · rw [hnil] at h'; cases h'

/-- **C49 violated (network rule).** For all blankets, the matrix returned by `iamb_markov_network` joins two variables when
*either* is in the blanket of the other: the raw matrix is already symmetric when the documented AND rule is applied. -/
theorem C49_and_rule_violated (mb : Fin n → List (Fin n)) (a b : Fin n) :
    network mb a b = true ↔ b ∈ mb a ∨ a ∈ mb b := by
  unfold network
  rw [Bool.and_eq_true, rawNetwork_eq, rawNetwork_eq]
  simp only [List.mem_finRange, true_and]
  tauto

/-- A symmetric test for which the AND rule would give a different network. -/
def asymT (x y : Fin 3) (S : List (Fin 3)) : Nat :=
  if (x = 0 ∧ y = 2) ∨ (x = 2 ∧ y = 0) then 1
  else if ((x = 0 ∧ y = 1) ∨ (x = 1 ∧ y = 0)) ∧ S = [] then 2
  else 90

example : (∀ x y S, asymT x y S = asymT y x S) ∧ iamb asymT 5 0 4 = some [2] ∧ iamb asymT 5 1 4 = some [0] := by
  refine ⟨fun x y S => ?_, by decide, by decide⟩
  unfold asymT
  congr 1
  · exact propext ⟨fun h => h.elim (fun h => Or.inr ⟨h.2, h.1⟩) fun h => Or.inl ⟨h.2, h.1⟩,
      fun h => h.elim (fun h => Or.inr ⟨h.2, h.1⟩) fun h => Or.inl ⟨h.2, h.1⟩⟩
  · congr 1
    exact propext ⟨fun h => ⟨h.1.elim (fun h => Or.inr ⟨h.2, h.1⟩) fun h => Or.inl ⟨h.2, h.1⟩, h.2⟩,
      fun h => ⟨h.1.elim (fun h => Or.inr ⟨h.2, h.1⟩) fun h => Or.inl ⟨h.2, h.1⟩, h.2⟩⟩

/-- **C49 (network).** With a d-separation oracle the network is exact: it joins two variables when one is in the Markov
blanket of the other (a symmetric relation). -/
theorem C49_network_oracle (E : Fin n → Fin n → Prop) (hac : Acyclic E) (T : Fin n → Fin n → List (Fin n) → P) (alpha : P)
    (ho : IambOracle E T alpha) (mb : Fin n → List (Fin n)) (hmb : ∀ i, iamb T alpha i (n + 1) = some (mb i)) (a b : Fin n) :
    network mb a b = true ↔ MarkovBlanket E a b := by
  have hb : ∀ i x, x ∈ mb i ↔ MarkovBlanket E i x := by
    intro i x
    obtain ⟨R, hR, -, hx⟩ := C49_oracle_exact E hac T alpha ho i
    have := hR (n + 1) (by omega)
    rw [hmb] at this
    injection this with this
    rw [this]; exact hx x
  rw [C49_and_rule_violated, hb, hb]
  have hsym : MarkovBlanket E b a → MarkovBlanket E a b := by
    rintro ⟨h, h1 | h1 | ⟨c, h1, h2⟩⟩
    · exact ⟨h.symm, Or.inr (Or.inl h1)⟩
    · exact ⟨h.symm, Or.inl h1⟩
    · exact ⟨h.symm, Or.inr (Or.inr ⟨c, h2, h1⟩)⟩
  exact ⟨fun h => h.elim id hsym, Or.inl⟩

end CL
