import Verif.Model.Pattern
import Verif.Props.PCComplete
import Mathlib.Data.Finset.Prod
import Mathlib.Data.Fintype.Prod

/-!
# C92: `dag2pattern` returns the pattern (essential graph) of a DAG
-/
namespace CL
namespace Pattern
open Spec Relation
variable {n : Nat}

/-- The matrix is the DAG `D` in the module's convention: `A i j = 1` and `A j i = 0` for an edge `i → j`, `-1` in both cells for no
edge, anything but `0` and `1` (NaN, `-1`) on the diagonal. -/
def Encodes (A : Mat n) (D : Fin n → Fin n → Prop) : Prop :=
  (∀ i j, D i j → A i j = 1 ∧ A j i = 0) ∧ (∀ i j, i ≠ j → ¬ Adj D i j → A i j = -1) ∧ ∀ i, A i i ≠ 0 ∧ A i i ≠ 1

/-! ## Queries -/

theorem mem_findVal (A : Mat n) (v : Int) (i j : Fin n) : (i, j) ∈ findVal A v ↔ A i j = v := by
  simp [findVal, mem_allPairs]

theorem mem_findFullyDirected (A : Mat n) (i j : Fin n) : (i, j) ∈ findFullyDirected A ↔ A i j = 1 ∧ A j i = 0 := by
  simp [findFullyDirected, mem_findVal]

theorem mem_findAdj (A : Mat n) (i j : Fin n) : (i, j) ∈ findAdj A ↔ A i j = 0 ∨ A i j = 1 := by
  simp [findAdj, mem_findVal]

theorem mem_unshieldedTriples (A : Mat n) (i j k : Fin n) : (i, j, k) ∈ unshieldedTriples A ↔
    (A i j = 0 ∨ A i j = 1) ∧ (A j k = 0 ∨ A j k = 1) ∧ i ≠ k ∧ A i k = -1 := by
  simp only [unshieldedTriples, List.mem_map, List.mem_filter, Prod.exists, Bool.and_eq_true, decide_eq_true_eq, beq_iff_eq,
    Prod.mk.injEq]
  constructor
  · rintro ⟨a, b, c, d, ⟨hp, ⟨rfl, hne⟩, hn⟩, rfl, rfl, rfl⟩
    rw [mem_perm2, mem_findAdj, mem_findAdj] at hp
    exact ⟨hp.1, hp.2.1, hne, hn⟩
  · rintro ⟨h1, h2, h3, h4⟩
    refine ⟨i, j, j, k, ⟨?_, ⟨rfl, h3⟩, h4⟩, rfl, rfl, rfl⟩
    rw [mem_perm2, mem_findAdj, mem_findAdj]
    refine ⟨h1, h2, fun e => ?_⟩
    simp only [Prod.mk.injEq] at e
    exact h3 (e.1.symm.trans e.2.symm)

theorem mem_triangles (A : Mat n) (i j k : Fin n) (hik : i ≠ k) : (i, j, k) ∈ triangles A ↔
    (A i j = 0 ∨ A i j = 1) ∧ (A j k = 0 ∨ A j k = 1) ∧ (A i k = 0 ∨ A i k = 1) := by
  simp only [triangles, List.mem_map, List.mem_filter, Prod.exists, decide_eq_true_eq, Prod.mk.injEq]
  constructor
  · rintro ⟨a, b, c, d, ⟨hp, rfl, hne, hn⟩, rfl, rfl, rfl⟩
    rw [mem_perm2, mem_findAdj, mem_findAdj] at hp
    exact ⟨hp.1, hp.2.1, (mem_findAdj _ _ _).1 hn⟩
  · rintro ⟨h1, h2, h3⟩
    refine ⟨i, j, j, k, ⟨?_, rfl, hik, (mem_findAdj _ _ _).2 h3⟩, rfl, rfl, rfl⟩
    rw [mem_perm2, mem_findAdj, mem_findAdj]
    refine ⟨h1, h2, fun e => ?_⟩
    simp only [Prod.mk.injEq] at e
    exact hik (e.1.symm.trans e.2.symm)

theorem triangles_ne (A : Mat n) (i j k : Fin n) (h : (i, j, k) ∈ triangles A) : i ≠ k := by
  simp only [triangles, List.mem_map, List.mem_filter, Prod.exists, decide_eq_true_eq, Prod.mk.injEq] at h
  obtain ⟨a, b, c, d, ⟨hp, rfl, hne, hn⟩, rfl, rfl, rfl⟩ := h
  exact hne

theorem mem_kites (A : Mat n) (i j k l : Fin n) (hil : i ≠ l) : (i, j, k, l) ∈ kites A ↔
    (A i j = 0 ∨ A i j = 1) ∧ (A i k = 0 ∨ A i k = 1) ∧ (A j l = 0 ∨ A j l = 1) ∧ (A k l = 0 ∨ A k l = 1) ∧
      (A i l = 0 ∨ A i l = 1) ∧ j < k ∧ A j k = -1 := by
  simp only [kites, List.mem_map, List.mem_filter, Prod.exists, Bool.and_eq_true, decide_eq_true_eq, beq_iff_eq, Prod.mk.injEq]
  constructor
  · rintro ⟨a, b, c, a', b', c', ⟨hp, ⟨rfl, rfl, hlt⟩, hn⟩, rfl, rfl, rfl, rfl⟩
    rw [mem_perm2, mem_triangles _ _ _ _ hil, mem_triangles _ _ _ _ hil] at hp
    tauto
  · rintro ⟨h1, h2, h3, h4, h5, h6, h7⟩
    refine ⟨i, j, l, i, k, l, ⟨?_, ⟨rfl, rfl, h6⟩, h7⟩, rfl, rfl, rfl, rfl⟩
    rw [mem_perm2, mem_triangles _ _ _ _ hil, mem_triangles _ _ _ _ hil]
    refine ⟨⟨h1, h3, h5⟩, ⟨h2, h4, h5⟩, fun e => ?_⟩
    simp only [Prod.mk.injEq] at e
    rw [e.2.1] at h6
    exact lt_irrefl _ h6

theorem kites_ne (A : Mat n) (i j k l : Fin n) (h : (i, j, k, l) ∈ kites A) : i ≠ l := by
  simp only [kites, List.mem_map, List.mem_filter, Prod.exists, Bool.and_eq_true, decide_eq_true_eq, beq_iff_eq,
    Prod.mk.injEq] at h
  obtain ⟨a, b, c, a', b', c', ⟨hp, ⟨rfl, rfl, hlt⟩, hn⟩, rfl, rfl, rfl, rfl⟩ := h
  rw [mem_perm2] at hp
  exact triangles_ne _ _ _ _ hp.1

theorem mem_findUC (A : Mat n) (i j k : Fin n) : (i, j, k) ∈ findUC A ↔
    (A i j = 1 ∧ A j i = 0) ∧ (A k j = 1 ∧ A j k = 0) ∧ i < k ∧ A i k = -1 := by
  simp only [findUC, List.mem_map, List.mem_filter, Prod.exists, Bool.and_eq_true, decide_eq_true_eq, beq_iff_eq, Prod.mk.injEq]
  constructor
  · rintro ⟨a, b, c, d, ⟨hp, ⟨rfl, hlt⟩, hn⟩, rfl, rfl, rfl⟩
    rw [mem_perm2, mem_findFullyDirected, mem_findFullyDirected] at hp
    exact ⟨hp.1, hp.2.1, hlt, hn⟩
  · rintro ⟨h1, h2, h3, h4⟩
    refine ⟨i, j, k, j, ⟨?_, ⟨rfl, h3⟩, h4⟩, rfl, rfl, rfl⟩
    rw [mem_perm2, mem_findFullyDirected, mem_findFullyDirected]
    refine ⟨h1, h2, fun e => ?_⟩
    simp only [Prod.mk.injEq] at e
    rw [e.1] at h3
    exact lt_irrefl _ h3

/-! ## Invariant -/

structure Inv (A : Mat n) (D : Fin n → Fin n → Prop) (Q : Mat n) : Prop where
  non : ∀ a b, a ≠ b → ¬ Adj D a b → Q a b = -1
  adj : ∀ a b, Adj D a b → Q a b = 0 ∨ Q a b = 1
  diag : ∀ a, Q a a = A a a
  meek : ∀ a b, a ≠ b → Q a b = 1 → Meek D a b

section
variable {A : Mat n} {D : Fin n → Fin n → Prop} (hac : Acyclic D) (hA : Encodes A D)
include hac

theorem irrefl_of (a : Fin n) : ¬ Adj D a a := fun h => hac a (TransGen.single (h.elim id id))

theorem ne_of_adj {a b : Fin n} (h : Adj D a b) : a ≠ b := by
  rintro rfl; exact irrefl_of hac a h

theorem meek_D {a b : Fin n} (h : Meek D a b) : D a b := h.sound hac ⟨fun _ _ => Iff.rfl, fun _ _ _ => Iff.rfl⟩

theorem Inv.set {Q : Mat n} (h : Inv A D Q) {a b : Fin n} (hm : Meek D a b) : Inv A D (setCell Q a b 1) := by
  have hab := ne_of_adj hac (Or.inl (meek_D hac hm))
  constructor
  · intro x y hxy hn
    unfold setCell
    rw [if_neg]
    · exact h.non x y hxy hn
    · rintro ⟨rfl, rfl⟩; exact hn (Or.inl (meek_D hac hm))
  · intro x y hxy
    unfold setCell
    split
    · exact Or.inr rfl
    · exact h.adj x y hxy
  · intro x
    unfold setCell
    rw [if_neg (by rintro ⟨rfl, rfl⟩; exact hab rfl)]
    exact h.diag x
  · intro x y hxy
    unfold setCell
    split
    · rename_i e; rintro -; rw [e.1, e.2]; exact hm
    · exact h.meek x y hxy

include hA

theorem inv_adj {Q : Mat n} (h : Inv A D Q) (a b : Fin n) : (Q a b = 0 ∨ Q a b = 1) ↔ Adj D a b := by
  constructor
  · intro hq
    by_contra hn
    by_cases hab : a = b
    · subst hab
      rw [h.diag] at hq
      exact hq.elim (hA.2.2 a).1 (hA.2.2 a).2
    · rw [h.non a b hab hn] at hq
      simp at hq
  · exact h.adj a b

theorem inv_meek {Q : Mat n} (h : Inv A D Q) {a b : Fin n} (hq : Q a b = 1) : Meek D a b :=
  h.meek a b (ne_of_adj hac ((inv_adj hac hA h a b).1 (Or.inr hq))) hq

theorem inv_null {Q : Mat n} (h : Inv A D Q) {a b : Fin n} (hab : a ≠ b) : Q a b = -1 ↔ ¬ Adj D a b := by
  constructor
  · intro hq hc
    rcases h.adj a b hc with h1 | h1 <;> rw [h1] at hq <;> simp at hq
  · exact h.non a b hab

theorem inv_asymm {Q : Mat n} (h : Inv A D Q) {a b : Fin n} (hq : Q a b = 1) : Q b a = 0 := by
  have h1 := meek_D hac (inv_meek hac hA h hq)
  rcases h.adj b a (Or.inr h1) with h2 | h2
  · exact h2
  · exact absurd (meek_D hac (inv_meek hac hA h h2)) (hac.asymm h1)

/-- the stripped matrix -/
theorem strip_inv : Inv A D (strip A) := by
  have hz : ∀ a b, strip A a b ≠ 1 := by
    intro a b
    unfold strip
    split
    · simp
    · assumption
  constructor
  · intro a b hab hn
    have := hA.2.1 a b hab hn
    unfold strip
    rw [this]; simp
  · intro a b h
    left
    unfold strip
    rcases h with h | h
    · simp [(hA.1 a b h).1]
    · simp [(hA.1 b a h).2]
  · intro a
    unfold strip
    rw [if_neg (hA.2.2 a).2]
  · intro a b _ h
    exact absurd h (hz a b)

theorem directed_iff (a b : Fin n) : (A a b = 1 ∧ A b a = 0) ↔ D a b := by
  constructor
  · intro h
    by_contra hn
    by_cases hba : D b a
    · have := (hA.1 b a hba).1
      rw [h.2] at this; simp at this
    · by_cases hab : a = b
      · subst hab; exact (hA.2.2 a).2 h.1
      · rw [hA.2.1 a b hab (by rintro (h1 | h1); exact hn h1; exact hba h1)] at h
        simp at h
  · exact hA.1 a b

theorem findUC_iff (a b c : Fin n) : (a, b, c) ∈ findUC A ↔ a < c ∧ UnshieldedCollider D a b c := by
  rw [mem_findUC, directed_iff hac hA, directed_iff hac hA]
  have hn : ∀ x y : Fin n, x < y → (A x y = -1 ↔ ¬ Adj D x y) := by
    intro x y hxy
    constructor
    · rintro h (h1 | h1)
      · rw [(hA.1 x y h1).1] at h; simp at h
      · rw [(hA.1 y x h1).2] at h; simp at h
    · exact hA.2.1 x y hxy.ne
  constructor
  · rintro ⟨h1, h2, h3, h4⟩
    exact ⟨h3, h3.ne, (hn _ _ h3).1 h4, h1, h2⟩
  · rintro ⟨h3, -, h4, h1, h2⟩
    exact ⟨h1, h2, h3, (hn _ _ h3).2 h4⟩

/-- the collider loop -/
theorem uc_fold (l : List (Fin n × Fin n × Fin n)) (hl : ∀ t ∈ l, UnshieldedCollider D t.1 t.2.1 t.2.2) :
    ∀ Q, Inv A D Q → Inv A D (l.foldl ucStep Q) ∧ (∀ a b, Q a b = 1 → l.foldl ucStep Q a b = 1) ∧
      ∀ t ∈ l, l.foldl ucStep Q t.1 t.2.1 = 1 ∧ l.foldl ucStep Q t.2.2 t.2.1 = 1 := by
  induction l with
  | nil => intro Q h; exact ⟨h, fun _ _ h => h, by simp⟩
  | cons t l ih =>
    intro Q h
    have ht := hl t List.mem_cons_self
    have h1 : Inv A D (ucStep Q t) := (h.set hac (.vs ht)).set hac (.vs (uc_symm ht))
    obtain ⟨i1, i2, i3⟩ := ih (fun t' ht' => hl t' (List.mem_cons_of_mem _ ht')) _ h1
    refine ⟨i1, fun a b hab => i2 a b ?_, ?_⟩
    · simp only [ucStep, setCell]; split_ifs <;> first | rfl | exact hab
    · intro t' ht'
      rcases List.mem_cons.1 ht' with rfl | ht'
      · refine ⟨i2 _ _ ?_, i2 _ _ ?_⟩
        · simp [ucStep, setCell]
        · simp [ucStep, setCell]
      · exact i3 t' ht'

end

/-! ## The loop -/

def zeros (Q : Mat n) : Finset (Fin n × Fin n) := Finset.univ.filter fun p => Q p.1 p.2 = 0

theorem mem_zeros {Q : Mat n} {p : Fin n × Fin n} : p ∈ zeros Q ↔ Q p.1 p.2 = 0 := by simp [zeros]

theorem zeros_set {Q : Mat n} {a b : Fin n} (h : Q a b = 0) : (zeros (setCell Q a b 1)).card < (zeros Q).card := by
  apply Finset.card_lt_card
  rw [Finset.ssubset_iff_of_subset]
  · exact ⟨(a, b), mem_zeros.2 h, by rw [mem_zeros]; simp [setCell]⟩
  · intro p
    rw [mem_zeros, mem_zeros]
    unfold setCell
    split
    · simp
    · exact id

/-- arrows only get added -/
def Le (Q R : Mat n) : Prop := ∀ a b, Q a b = 1 → R a b = 1

theorem Le.set (Q : Mat n) (a b : Fin n) : Le Q (setCell Q a b 1) := by
  intro x y h
  unfold setCell
  split
  · rfl
  · exact h

/-- what one application of a rule does: nothing, or one more arrow -/
def Step (A : Mat n) (D : Fin n → Fin n → Prop) (st st' : Mat n × Bool) : Prop :=
  st' = st ∨ ((zeros st'.1).card < (zeros st.1).card ∧ st'.2 = true ∧ Inv A D st'.1 ∧ Le st.1 st'.1)

section
variable {A : Mat n} {D : Fin n → Fin n → Prop} (hac : Acyclic D) (hA : Encodes A D)
include hac hA

/-- the unshielded colliders of `D` are visible -/
def HasUC (D : Fin n → Fin n → Prop) (Q : Mat n) : Prop := ∀ a b c, UnshieldedCollider D a b c → Q a b = 1

theorem set_step {st : Mat n × Bool} {a b : Fin n} (h : Inv A D st.1) (hz : st.1 a b = 0) (hm : Meek D a b) :
    Step A D st (setCell st.1 a b 1, true) := Or.inr ⟨zeros_set hz, rfl, h.set hac hm, Le.set _ _ _⟩

theorem rule1_step {Q0 : Mat n} (h0 : Inv A D Q0) (hu : HasUC D Q0) (t : Fin n × Fin n × Fin n) (ht : t ∈ unshieldedTriples Q0)
    (st : Mat n × Bool) (h : Inv A D st.1) (hle : Le Q0 st.1) : Step A D st (rule1 st t) := by
  obtain ⟨x, a, b⟩ := t
  rw [mem_unshieldedTriples, inv_adj hac hA h0, inv_adj hac hA h0] at ht
  obtain ⟨h1, h2, h3, h4⟩ := ht
  unfold rule1
  split
  · rename_i hc
    simp only [isDir, isUnd, Bool.and_eq_true, beq_iff_eq] at hc
    refine set_step hac hA h hc.2.1 (.r1 (inv_meek hac hA h hc.1.1) h2 h3 ((inv_null hac hA h0 h3).1 h4) fun hv => ?_)
    have h5 := hle _ _ (hu _ _ _ (uc_symm hv))
    rw [hc.2.2] at h5; simp at h5
  · exact Or.inl rfl

theorem rule2_step (t : Fin n × Fin n × Fin n) (st : Mat n × Bool) (h : Inv A D st.1) : Step A D st (rule2 st t) := by
  obtain ⟨a, x, b⟩ := t
  unfold rule2
  split
  · rename_i hc
    simp only [isDir, isUnd, Bool.and_eq_true, beq_iff_eq] at hc
    exact set_step hac hA h hc.2.1 (.r2 (inv_meek hac hA h hc.1.1.1) (inv_meek hac hA h hc.1.2.1)
      ((inv_adj hac hA h a b).1 (Or.inl hc.2.1)))
  · exact Or.inl rfl

theorem rule3_step {Q0 : Mat n} (h0 : Inv A D Q0) (hu : HasUC D Q0) (t : Fin n × Fin n × Fin n × Fin n) (ht : t ∈ kites Q0)
    (st : Mat n × Bool) (h : Inv A D st.1) (hle : Le Q0 st.1) : Step A D st (rule3 st t) := by
  obtain ⟨a, d, e, b⟩ := t
  have hne := kites_ne _ _ _ _ _ ht
  rw [mem_kites _ _ _ _ _ hne] at ht
  obtain ⟨-, -, -, -, -, h6, h7⟩ := ht
  unfold rule3
  split
  · rename_i hc
    simp only [isDir, isUnd, Bool.and_eq_true, beq_iff_eq] at hc
    obtain ⟨⟨⟨⟨c1, c2⟩, c3⟩, c4⟩, c5⟩ := hc
    have ad := fun {x y : Fin n} (e : st.1 x y = 0) => (inv_adj hac hA h x y).1 (Or.inl e)
    refine set_step hac hA h c5.1 (.r3 (ad c5.1) (ad c1.1) (ad c2.1) (inv_meek hac hA h c3.1) (inv_meek hac hA h c4.1) h6.ne
      ((inv_null hac hA h0 h6.ne).1 h7) fun hv => ?_)
    have h5 := hle _ _ (hu _ _ _ hv)
    rw [c1.2] at h5; simp at h5
  · exact Or.inl rfl

/-- one iteration -/
theorem pass_spec {Q0 : Mat n} (h0 : Inv A D Q0) (hu : HasUC D Q0) (Q : Mat n) (h : Inv A D Q) (hle : Le Q0 Q) :
    Inv A D (pass (unshieldedTriples Q0) (triangles Q0) (kites Q0) Q).1 ∧
    Le Q0 (pass (unshieldedTriples Q0) (triangles Q0) (kites Q0) Q).1 ∧
    ((pass (unshieldedTriples Q0) (triangles Q0) (kites Q0) Q = (Q, false) ∧
        (∀ t ∈ unshieldedTriples Q0, rule1 (Q, false) t = (Q, false)) ∧ (∀ t ∈ triangles Q0, rule2 (Q, false) t = (Q, false)) ∧
        ∀ t ∈ kites Q0, rule3 (Q, false) t = (Q, false)) ∨
      ((zeros (pass (unshieldedTriples Q0) (triangles Q0) (kites Q0) Q).1).card < (zeros Q).card ∧
        (pass (unshieldedTriples Q0) (triangles Q0) (kites Q0) Q).2 = true)) := by
  unfold pass
  -- strengthen the invariant by `Le Q0`
  have key : ∀ {α : Type} (f : Mat n × Bool → α → Mat n × Bool) (l : List α) (st : Mat n × Bool),
      (∀ t ∈ l, ∀ st, Inv A D st.1 → Le Q0 st.1 → Step A D st (f st t)) → Inv A D st.1 → Le Q0 st.1 →
      Inv A D (l.foldl f st).1 ∧ Le Q0 (l.foldl f st).1 ∧
      ((l.foldl f st = st ∧ ∀ t ∈ l, f st t = st) ∨ ((zeros (l.foldl f st).1).card < (zeros st.1).card ∧ (l.foldl f st).2 = true)) := by
    intro α f l
    induction l with
    | nil => intro st _ h1 h2; exact ⟨h1, h2, Or.inl ⟨rfl, by simp⟩⟩
    | cons t l ih =>
      intro st hf h1 h2
      rw [List.foldl_cons]
      have hl : ∀ t' ∈ l, ∀ st, Inv A D st.1 → Le Q0 st.1 → Step A D st (f st t') := fun t' ht' => hf t' (List.mem_cons_of_mem _ ht')
      rcases hf t List.mem_cons_self st h1 h2 with e | ⟨z, b, i, le⟩
      · rw [e]
        obtain ⟨i1, i2, i3⟩ := ih st hl h1 h2
        refine ⟨i1, i2, i3.imp_left fun ⟨e1, e2⟩ => ⟨e1, ?_⟩⟩
        intro t' ht'
        rcases List.mem_cons.1 ht' with rfl | ht'
        · exact e
        · exact e2 t' ht'
      · obtain ⟨i1, i2, i3⟩ := ih _ hl i (fun a b hab => le a b (h2 a b hab))
        refine ⟨i1, i2, Or.inr ?_⟩
        rcases i3 with ⟨e, -⟩ | ⟨z', b'⟩
        · rw [e]; exact ⟨z, b⟩
        · exact ⟨z'.trans z, b'⟩
  obtain ⟨a1, a2, a3⟩ := key rule1 (unshieldedTriples Q0) (Q, false) (fun t ht st h1 h2 => rule1_step hac hA h0 hu t ht st h1 h2) h hle
  generalize (unshieldedTriples Q0).foldl rule1 (Q, false) = s1 at a1 a2 a3 ⊢
  obtain ⟨b1, b2, b3⟩ := key rule2 (triangles Q0) s1 (fun t ht st h1 h2 => rule2_step hac hA t st h1) a1 a2
  generalize (triangles Q0).foldl rule2 s1 = s2 at b1 b2 b3 ⊢
  obtain ⟨c1, c2, c3⟩ := key rule3 (kites Q0) s2 (fun t ht st h1 h2 => rule3_step hac hA h0 hu t ht st h1 h2) b1 b2
  generalize (kites Q0).foldl rule3 s2 = s3 at c1 c2 c3 ⊢
  refine ⟨c1, c2, ?_⟩
  rcases a3 with ⟨rfl, a3⟩ | ⟨a3, a4⟩
  · rcases b3 with ⟨rfl, b3⟩ | ⟨b3, b4⟩
    · rcases c3 with ⟨rfl, c3⟩ | c3
      · exact Or.inl ⟨rfl, a3, b3, c3⟩
      · exact Or.inr c3
    · rcases c3 with ⟨rfl, c3⟩ | ⟨c3, c4⟩
      · exact Or.inr ⟨b3, b4⟩
      · exact Or.inr ⟨c3.trans b3, c4⟩
  · right
    rcases b3 with ⟨rfl, b3⟩ | ⟨b3, b4⟩
    · rcases c3 with ⟨rfl, c3⟩ | ⟨c3, c4⟩
      · exact ⟨a3, a4⟩
      · exact ⟨c3.trans a3, c4⟩
    · rcases c3 with ⟨rfl, c3⟩ | ⟨c3, c4⟩
      · exact ⟨b3.trans a3, b4⟩
      · exact ⟨(c3.trans b3).trans a3, c4⟩

/-- closed under the rules: everything derivable is shown -/
theorem closed_meek {Q0 Q : Mat n} (h0 : Inv A D Q0) (hu : HasUC D Q0) (h : Inv A D Q) (hle : Le Q0 Q)
    (c1 : ∀ t ∈ unshieldedTriples Q0, rule1 (Q, false) t = (Q, false)) (c2 : ∀ t ∈ triangles Q0, rule2 (Q, false) t = (Q, false))
    (c3 : ∀ t ∈ kites Q0, rule3 (Q, false) t = (Q, false)) {a b : Fin n} (hm : Meek D a b) : Q a b = 1 := by
  have set_ne : ∀ {x y : Fin n}, ¬ ((setCell Q x y 1, true) = (Q, false)) := by intro x y e; simp at e
  have back : ∀ {x y : Fin n}, Meek D x y → Q x y = 1 ∨ Q x y = 0 ∧ Q y x = 0 := by
    intro x y hxy
    have hD := meek_D hac hxy
    rcases h.adj x y (Or.inl hD) with e | e
    · refine Or.inr ⟨e, ?_⟩
      rcases h.adj y x (Or.inr hD) with e' | e'
      · exact e'
      · exact absurd (meek_D hac (inv_meek hac hA h e')) (hac.asymm hD)
    · exact Or.inl e
  have A0 : ∀ {x y : Fin n}, Adj D x y → Q0 x y = 0 ∨ Q0 x y = 1 := fun hx => h0.adj _ _ hx
  have dir : ∀ {x y : Fin n}, Q x y = 1 → isDir Q x y = true := by
    intro x y e
    simp [isDir, e, inv_asymm hac hA h e]
  have r2c : ∀ {x y z : Fin n}, Q x y = 1 → Q y z = 1 → Adj D x z → Q x z = 0 → Q z x = 0 → False := by
    intro x y z e1 e2 e3 e4 e5
    have hxz := ne_of_adj hac e3
    have := c2 (x, y, z) ((mem_triangles _ _ _ _ hxz).2 ⟨A0 (Or.inl (meek_D hac (inv_meek hac hA h e1))),
      A0 (Or.inl (meek_D hac (inv_meek hac hA h e2))), A0 e3⟩)
    unfold rule2 at this
    rw [if_pos (by simp [dir e1, dir e2, isUnd, e4, e5])] at this
    exact set_ne this
  have r1c : ∀ {x y z : Fin n}, Q x y = 1 → Q y z = 0 → Q z y = 0 → x ≠ z → ¬ Adj D x z → False := by
    intro x y z e1 e2 e3 e4 e5
    have := c1 (x, y, z) ((mem_unshieldedTriples _ _ _ _).2 ⟨A0 (Or.inl (meek_D hac (inv_meek hac hA h e1))),
      A0 ((inv_adj hac hA h y z).1 (Or.inl e2)), e4, h0.non _ _ e4 e5⟩)
    unfold rule1 at this
    rw [if_pos (by simp [dir e1, isUnd, e2, e3])] at this
    exact set_ne this
  induction hm with
  | @vs a b c hv => exact hle _ _ (hu a b c hv)
  | @r1 x a b h1 ha hne hna hnu ih =>
    rcases back (.r1 h1 ha hne hna hnu) with e | ⟨e, e'⟩
    · exact e
    · exact (r1c ih e e' hne hna).elim
  | @r2 a x b h1 h2 ha ih1 ih2 =>
    rcases back (.r2 h1 h2 ha) with e | ⟨e, e'⟩
    · exact e
    · exact (r2c ih1 ih2 ha e e').elim
  | @r3 a b d e hab had hae h1 h2 hne hna hnu ih1 ih2 =>
    rcases back (.r3 hab had hae h1 h2 hne hna hnu) with e3 | ⟨e3, e3'⟩
    · exact e3
    · exfalso
      have kinds : ∀ {x y : Fin n}, Adj D x y → Q x y = 1 ∨ Q y x = 1 ∨ (Q x y = 0 ∧ Q y x = 0) := by
        intro x y hxy
        rcases h.adj x y hxy with k1 | k1
        · rcases h.adj y x hxy.symm with k2 | k2
          · exact Or.inr (Or.inr ⟨k1, k2⟩)
          · exact Or.inr (Or.inl k2)
        · exact Or.inl k1
      rcases kinds had with k1 | k1 | k1
      · exact r2c k1 ih1 hab e3 e3'
      · rcases kinds hae with k2 | k2 | k2
        · exact r2c k2 ih2 hab e3 e3'
        · exact hnu ⟨hne, hna, meek_D hac (inv_meek hac hA h k1), meek_D hac (inv_meek hac hA h k2)⟩
        · exact r1c k1 k2.1 k2.2 hne hna
      · rcases kinds hae with k2 | k2 | k2
        · exact r2c k2 ih2 hab e3 e3'
        · exact r1c k2 k1.1 k1.2 hne.symm fun hc => hna hc.symm
        · have hij := ne_of_adj hac hab
          have kite : ∀ {u v : Fin n}, u < v → ¬ Adj D u v → Adj D a u → Adj D a v → (Q a u = 0 ∧ Q u a = 0) → (Q a v = 0 ∧ Q v a = 0) →
              Q u b = 1 → Q v b = 1 → False := by
            intro u v huv hnv hau hav ku kv hu1 hv1
            have := c3 (a, u, v, b) ((mem_kites _ _ _ _ _ hij).2 ⟨A0 hau, A0 hav, A0 (Or.inl (meek_D hac (inv_meek hac hA h hu1))),
              A0 (Or.inl (meek_D hac (inv_meek hac hA h hv1))), A0 hab, huv, h0.non _ _ huv.ne hnv⟩)
            unfold rule3 at this
            rw [if_pos (by simp [dir hu1, dir hv1, isUnd, ku.1, ku.2, kv.1, kv.2, e3, e3'])] at this
            exact set_ne this
          rcases lt_or_gt_of_ne hne with hlt | hlt
          · exact kite hlt hna had hae k1 k2 ih1 ih2
          · exact kite hlt (fun hc => hna hc.symm) hae had k2 k1 ih2 ih1

theorem loop_spec {Q0 : Mat n} (h0 : Inv A D Q0) (hu : HasUC D Q0) : ∀ (fuel : Nat) (Q : Mat n), Inv A D Q → Le Q0 Q →
    (zeros Q).card < fuel → ∃ R, loop (unshieldedTriples Q0) (triangles Q0) (kites Q0) fuel Q = some R ∧ Inv A D R ∧
      ∀ a b, Meek D a b → R a b = 1 := by
  intro fuel
  induction fuel with
  | zero => intro Q _ _ h; omega
  | succ f ih =>
    intro Q h hle hz
    unfold loop
    obtain ⟨p1, p2, p3⟩ := pass_spec hac hA h0 hu Q h hle
    rcases p3 with ⟨e, c1, c2, c3⟩ | ⟨hlt, hb⟩
    · rw [e]
      exact ⟨Q, rfl, h, fun a b hm => closed_meek hac hA h0 hu h hle c1 c2 c3 hm⟩
    · rw [if_pos hb]
      exact ih _ p1 p2 (by omega)

end

theorem zeros_le (Q : Mat n) : (zeros Q).card ≤ n * n := by
  calc (zeros Q).card ≤ (Finset.univ : Finset (Fin n × Fin n)).card := Finset.card_filter_le _ _
    _ = n * n := by simp

/-- **C92.** Given the matrix of a DAG, `dag2pattern` stops after at most `n² + 1` rounds and returns the DAG's pattern: a single `-1`
marks the same non-adjacencies, `i → j` (`1` against `0`) exactly for the edges that every DAG with the same skeleton and v-structures
directs that way, all other edges undirected (`0`, `0`), and the diagonal as it was. -/
theorem C92_dag2pattern (A : Mat n) (D : Fin n → Fin n → Prop) (hac : Acyclic D) (hA : Encodes A D) (fuel : Nat)
    (hf : n * n < fuel) : ∃ Q, dag2pattern A fuel = some Q ∧
      (∀ a b, a ≠ b → (Q a b = -1 ↔ ¬ Adj D a b)) ∧
      (∀ a b, (Q a b = 1 ∧ Q b a = 0) ↔ Compelled D a b) ∧
      (∀ a b, (Q a b = 0 ∧ Q b a = 0) ↔ Adj D a b ∧ ¬ Compelled D a b ∧ ¬ Compelled D b a) ∧
      ∀ a, Q a a = A a a := by
  obtain ⟨i1, -, i3⟩ := uc_fold hac hA (findUC A) (fun t ht => ((findUC_iff hac hA _ _ _).1 ht).2) (strip A) (strip_inv hac hA)
  have hu : HasUC D ((findUC A).foldl ucStep (strip A)) := by
    intro a b c hv
    rcases lt_or_gt_of_ne hv.1 with hlt | hlt
    · exact (i3 (a, b, c) ((findUC_iff hac hA _ _ _).2 ⟨hlt, hv⟩)).1
    · exact (i3 (c, b, a) ((findUC_iff hac hA _ _ _).2 ⟨hlt, uc_symm hv⟩)).2
  obtain ⟨R, e, hR, hm⟩ := loop_spec hac hA i1 hu fuel _ i1 (fun _ _ h => h) (lt_of_le_of_lt (zeros_le _) hf)
  have one : ∀ a b, R a b = 1 ↔ Compelled D a b := fun a b => by
    rw [compelled_iff_meek hac]; exact ⟨fun h => inv_meek hac hA hR h, hm a b⟩
  refine ⟨R, e, fun a b hab => inv_null hac hA hR hab, fun a b => ?_, fun a b => ?_, hR.diag⟩
  · rw [← one]; exact ⟨fun h => h.1, fun h => ⟨h, inv_asymm hac hA hR h⟩⟩
  · rw [← one, ← one]
    constructor
    · rintro ⟨h1, h2⟩
      exact ⟨(inv_adj hac hA hR a b).1 (Or.inl h1), by rw [h1]; simp, by rw [h2]; simp⟩
    · rintro ⟨h1, h2, h3⟩
      exact ⟨(hR.adj a b h1).resolve_right h2, (hR.adj b a h1.symm).resolve_right h3⟩

/-! ### Example: `0 → 2 ← 1`, `2 → 3`, NaN (`2`) on the diagonal; the last edge is compelled by rule 1 -/

def exMat : Mat 4 := fun i j =>
  if i = j then 2
  else if (i, j) = (0, 2) ∨ (i, j) = (1, 2) ∨ (i, j) = (2, 3) then 1
  else if (j, i) = (0, 2) ∨ (j, i) = (1, 2) ∨ (j, i) = (2, 3) then 0
  else -1

def exD (i j : Fin 4) : Prop := (i, j) = (0, 2) ∨ (i, j) = (1, 2) ∨ (i, j) = (2, 3)

instance : DecidableRel exD := fun i j => by unfold exD; infer_instance

example : Acyclic exD ∧ Encodes exMat exD := by
  refine ⟨?_, ?_, ?_, ?_⟩
  · intro x hx
    have : ∀ a b, TransGen exD a b → a < b := by
      intro a b h
      induction h with
      | single h => revert h; revert a; rename_i b; revert b; decide
      | @tail b c _ h ih =>
        have : ∀ b c : Fin 4, exD b c → b < c := by decide
        exact ih.trans (this _ _ h)
    exact lt_irrefl x (this x x hx)
  · decide
  · unfold Adj; decide
  · decide

example : (dag2pattern exMat 17).elim false (fun Q => decide (∀ i j, Q i j = exMat i j)) = true := by decide +kernel

end Pattern
end CL
