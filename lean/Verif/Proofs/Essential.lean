import Verif.Spec.DSep
import Verif.Proofs.DSep
import Mathlib.Data.List.Perm.Basic
import Mathlib.Data.List.Nodup
import Mathlib.Data.Nat.Find
import Mathlib.Order.Basic
import Mathlib.Order.Nat

/-!
# Essential graphs: correctness of Chickering's edge labelling

Abstract part (no code): a relation `C` satisfying the labelling equations of the algorithm picks out exactly the edges that
have the same direction in every Markov-equivalent DAG.
-/
namespace Spec
open Relation
variable {V : Type} {E : V → V → Prop} {C : V → V → Prop} {τ : V → Nat}

/-- `x` is the last parent of `y` in the order `τ`. -/
def LastParent (E : V → V → Prop) (τ : V → Nat) (x y : V) : Prop := E x y ∧ ∀ z, E z y → τ z ≤ τ x

/-- All edges into `y` are labelled compelled because of its last parent `x`. -/
def Forced (E C : V → V → Prop) (x y : V) : Prop := (∃ w, C w x ∧ ¬ E w y) ∨ ∃ z, E z y ∧ z ≠ x ∧ ¬ E z x

/-- The labelling equations. -/
structure Labelling (E C : V → V → Prop) (τ : V → Nat) : Prop where
  topo : ∀ a b, E a b → τ a < τ b
  inj : ∀ a b, τ a = τ b → a = b
  sub : ∀ a b, C a b → E a b
  lab : ∀ x y, LastParent E τ x y → ∀ z, C z y ↔ E z y ∧ (Forced E C x y ∨ C z x)

theorem exists_lastParent (htopo : ∀ a b, E a b → τ a < τ b) {z y : V} (h : E z y) : ∃ x, LastParent E τ x y := by
  obtain ⟨k, hk⟩ : ∃ k, τ y - τ z = k := ⟨_, rfl⟩
  induction k using Nat.strong_induction_on generalizing z with
  | _ k ih =>
    by_cases hz : ∀ w, E w y → τ w ≤ τ z
    · exact ⟨z, h, hz⟩
    · push Not at hz
      obtain ⟨w, hw, hlt⟩ := hz
      have := htopo w y hw
      exact ih (τ y - τ w) (by omega) hw rfl

theorem Labelling.acyclic (L : Labelling E C τ) : Acyclic E := by
  have : ∀ a b, TransGen E a b → τ a < τ b := by
    intro a b h
    induction h with
    | single h => exact L.topo _ _ h
    | tail _ h ih => exact ih.trans (L.topo _ _ h)
  exact fun x hx => lt_irrefl _ (this x x hx)

/-- Every compelled label comes from a node `u` at which the algorithm forced all edges. -/
theorem Labelling.witness (L : Labelling E C τ) {z y : V} (h : C z y) :
    ∃ u x, E z u ∧ LastParent E τ x u ∧ Forced E C x u ∧ (∀ p, E p u → C p y) ∧
      (∀ p, E p y → E p u ∨ τ u ≤ τ p) ∧ τ u ≤ τ y := by
  obtain ⟨k, hk⟩ : ∃ k, τ y = k := ⟨_, rfl⟩
  induction k using Nat.strong_induction_on generalizing y with
  | _ k ih =>
    have hE := L.sub _ _ h
    obtain ⟨x, hx⟩ := exists_lastParent L.topo hE
    by_cases hF : Forced E C x y
    · exact ⟨y, x, hE, hx, hF, fun p hp => (L.lab x y hx p).2 ⟨hp, Or.inl hF⟩, fun p hp => Or.inl hp, le_rfl⟩
    · have hz : C z x := by
        rcases ((L.lab x y hx z).1 h).2 with h1 | h1
        · exact absurd h1 hF
        · exact h1
      have hxy := L.topo _ _ hx.1
      obtain ⟨u, x', h1, h2, h3, h4, h5, h6⟩ := ih (τ x) (by omega) hz rfl
      refine ⟨u, x', h1, h2, h3, fun p hp => ?_, fun p hp => ?_, by omega⟩
      · have hpx := h4 p hp
        have : E p y := by
          by_contra hne
          exact hF (Or.inl ⟨p, hpx, hne⟩)
        exact (L.lab x y hx p).2 ⟨this, Or.inr hpx⟩
      · by_cases hpx : p = x
        · right; rw [hpx]; exact h6
        · have : E p x := by
            by_contra hne
            exact hF (Or.inr ⟨p, hp, hpx, hne⟩)
          exact h5 p this

theorem Adj.of_equiv {F : V → V → Prop} (h : MarkovEquiv E F) {a b : V} (hab : Adj E a b) : Adj F a b := (h.1 a b).1 hab

/-- **Soundness**: a compelled label is a direction shared by every Markov-equivalent DAG. -/
theorem Labelling.sound (L : Labelling E C τ) {F : V → V → Prop} (hF : Acyclic F) (heq : MarkovEquiv E F) {z y : V}
    (h : C z y) : F z y := by
  obtain ⟨k, hk⟩ : ∃ k, τ y = k := ⟨_, rfl⟩
  induction k using Nat.strong_induction_on generalizing z y with
  | _ k ih =>
    have hEac := L.acyclic
    obtain ⟨u, x, h1, h2, h3, h4, h5, h6⟩ := L.witness h
    have hE := L.sub _ _ h
    have hxu := L.topo _ _ h2.1
    have hEup : ∀ p, E p u → E p y := fun p hp => L.sub _ _ (h4 p hp)
    -- adjacent in `F` and not `F y z` is what has to be excluded
    have hFadj : ∀ p, E p y → F p y ∨ F y p := fun p hp => (heq.1 p y).1 (Or.inl hp)
    have tri : ∀ {a b c}, F a b → F b c → Adj E a c → F a c := by
      intro a b c hab hbc hac
      rcases (heq.1 a c).1 hac with h | h
      · exact h
      · exact absurd (TransGen.head hab (TransGen.head hbc (TransGen.single h))) (hF a)
    have notF : ∀ {a b}, E a b → ∀ {c}, E c b → ¬ Adj E a c → a ≠ c → F a b := by
      intro a b hab c hcb hna hne
      exact ((heq.2 a b c).1 ⟨hne, hna, hab, hcb⟩).2.2.1
    have back : ∀ {a b c}, F a b → F c b → ¬ Adj E a c → a ≠ c → E a b := by
      intro a b c hab hcb hna hne
      exact ((heq.2 a b c).2 ⟨hne, fun h => hna ((heq.1 a c).2 h), hab, hcb⟩).2.2.1
    rcases h3 with ⟨w, hwx, hwu⟩ | ⟨z', hz'u, hz'x, hz'nx⟩
    · have hwx' := L.topo _ _ (L.sub _ _ hwx)
      have hFwx : F w x := ih (τ x) (by omega) hwx rfl
      have hwy : ¬ Adj E w y := by
        rintro (hw | hw)
        · rcases h5 w hw with h | h
          · exact hwu h
          · omega
        · have := L.topo _ _ hw; omega
      have hwney : w ≠ y := by rintro rfl; omega
      have hFxy : F x y := by
        rcases hFadj x (hEup x h2.1) with h | h
        · exact h
        · have := L.topo _ _ (back h hFwx (fun h => hwy h.symm) hwney.symm)
          omega
      by_cases hzx : z = x
      · rw [hzx]; exact hFxy
      · have hzlt : τ z < τ x := lt_of_le_of_ne (h2.2 z h1) fun h => hzx (L.inj _ _ h)
        rcases hFadj z hE with h | hyz
        · exact h
        · exfalso
          have hxz : Adj E z x := by
            by_contra hna
            exact hF.asymm hyz (notF hE (hEup x h2.1) hna hzx)
          have hEzx : E z x := by
            rcases hxz with h | h
            · exact h
            · have := L.topo _ _ h; omega
          have hFxz : F x z := tri hFxy hyz hxz.symm
          have hwz : w ≠ z := by rintro rfl; exact hwu h1
          by_cases hawz : Adj E w z
          · have hFwz := tri hFwx hFxz hawz
            have := L.topo _ _ (back hyz hFwz (fun h => hwy h.symm) hwney.symm)
            have := L.topo _ _ hE
            omega
          · exact hF.asymm hFxz (notF hEzx (L.sub _ _ hwx) (fun h => hawz h.symm) hwz.symm)
    · have hz'lt : τ z' < τ x := lt_of_le_of_ne (h2.2 z' hz'u) fun h => hz'x (L.inj _ _ h)
      have hna : ¬ Adj E z' x := by
        rintro (h | h)
        · exact hz'nx h
        · have := L.topo _ _ h; omega
      have hFz'y : F z' y := notF (hEup _ hz'u) (hEup _ h2.1) hna hz'x
      have hFxy : F x y := notF (hEup _ h2.1) (hEup _ hz'u) (fun h => hna h.symm) hz'x.symm
      by_cases hzx : z = x
      · rw [hzx]; exact hFxy
      by_cases hzz' : z = z'
      · rw [hzz']; exact hFz'y
      rcases hFadj z hE with h | hyz
      · exact h
      · exfalso
        have a1 : Adj E z x := by
          by_contra hna
          exact hF.asymm hyz (notF hE (hEup x h2.1) hna hzx)
        have a2 : Adj E z z' := by
          by_contra hna
          exact hF.asymm hyz (notF hE (hEup z' hz'u) hna hzz')
        have f1 : F x z := tri hFxy hyz a1.symm
        have f2 : F z' z := tri hFz'y hyz a2.symm
        have := L.topo _ _ (back f1 f2 (fun h => hna h.symm) hz'x.symm)
        have := h2.2 z h1
        omega

/-! ## Completeness -/

/-- A reversible edge. -/
def Rev (E C : V → V → Prop) (a b : V) : Prop := E a b ∧ ¬ C a b

/-- An undirected edge of the labelled graph. -/
def Und (E C : V → V → Prop) (a b : V) : Prop := Rev E C a b ∨ Rev E C b a

theorem Und.symm {a b : V} (h : Und E C a b) : Und E C b a := h.elim Or.inr Or.inl

theorem Labelling.rev_last (L : Labelling E C τ) {z x y : V} (h : Rev E C z y) (hx : LastParent E τ x y) :
    ¬ Forced E C x y ∧ (z = x ∨ Rev E C z x) ∧ ∀ w, C w y ↔ C w x := by
  have hF : ¬ Forced E C x y := fun hF => h.2 ((L.lab x y hx z).2 ⟨h.1, Or.inl hF⟩)
  refine ⟨hF, ?_, fun w => ⟨fun hw => ?_, fun hw => ?_⟩⟩
  · by_cases hzx : z = x
    · exact Or.inl hzx
    · right
      refine ⟨?_, fun hc => h.2 ((L.lab x y hx z).2 ⟨h.1, Or.inr hc⟩)⟩
      by_contra hne
      exact hF (Or.inr ⟨z, h.1, hzx, hne⟩)
  · exact ((L.lab x y hx w).1 hw).2.resolve_left hF
  · refine (L.lab x y hx w).2 ⟨?_, Or.inr hw⟩
    by_contra hne
    exact hF (Or.inl ⟨w, hw, hne⟩)

/-- Nodes joined by a reversible edge have the same compelled parents. -/
theorem Labelling.rev_parents (L : Labelling E C τ) {z y : V} (h : Rev E C z y) : ∀ w, C w y ↔ C w z := by
  obtain ⟨k, hk⟩ : ∃ k, τ y = k := ⟨_, rfl⟩
  induction k using Nat.strong_induction_on generalizing y with
  | _ k ih =>
    obtain ⟨x, hx⟩ := exists_lastParent L.topo h.1
    obtain ⟨-, h1, h2⟩ := L.rev_last h hx
    rcases h1 with rfl | h1
    · exact h2
    · have := L.topo _ _ hx.1
      intro w
      rw [h2 w]
      exact ih (τ x) (by omega) h1 rfl w

theorem Labelling.und_parents (L : Labelling E C τ) {a b : V} (h : Und E C a b) (w : V) : C w a ↔ C w b :=
  h.elim (fun h => (L.rev_parents h w).symm) fun h => L.rev_parents h w

/-- The reversible parents of a node form a clique of reversible edges. -/
theorem Labelling.rev_clique (L : Labelling E C τ) {a b y : V} (ha : Rev E C a y) (hb : Rev E C b y) (hab : a ≠ b) :
    Und E C a b := by
  obtain ⟨k, hk⟩ : ∃ k, τ y = k := ⟨_, rfl⟩
  induction k using Nat.strong_induction_on generalizing y with
  | _ k ih =>
    obtain ⟨x, hx⟩ := exists_lastParent L.topo ha.1
    have hlt := L.topo _ _ hx.1
    rcases (L.rev_last ha hx).2.1 with rfl | h1
    · rcases (L.rev_last hb hx).2.1 with rfl | h2
      · exact absurd rfl hab
      · exact Or.inr h2
    · rcases (L.rev_last hb hx).2.1 with rfl | h2
      · exact Or.inl h1
      · exact ih (τ x) (by omega) h1 h2 rfl

/-! ### Perfect elimination orders -/

/-- `Perf U l`: reading `l` from its end, the earlier neighbours of every node form a clique. -/
def Perf (U : V → V → Prop) : List V → Prop
  | [] => True
  | v :: l => (∀ a ∈ l, ∀ b ∈ l, U v a → U v b → a ≠ b → U a b) ∧ Perf U l

/-- A clique. -/
def Clique (U : V → V → Prop) (K : List V) : Prop := ∀ a ∈ K, ∀ b ∈ K, a ≠ b → U a b

theorem perf_of_clique {U : V → V → Prop} {K : List V} (h : Clique U K) : Perf U K := by
  induction K with
  | nil => trivial
  | cons a K ih =>
    exact ⟨fun x hx y hy _ _ hxy => h x (by simp [hx]) y (by simp [hy]) hxy,
      ih fun x hx y hy hxy => h x (by simp [hx]) y (by simp [hy]) hxy⟩

theorem perf_append {U : V → V → Prop} {l0 l1 l2 : List V} (h : Perf U (l0 ++ l1)) (h2 : Perf U l2)
    (hmem : ∀ v ∈ l0, ∀ a ∈ l2, U v a → a ∈ l1) : Perf U (l0 ++ l2) := by
  induction l0 with
  | nil => exact h2
  | cons v l0 ih =>
    obtain ⟨h1, h3⟩ := h
    refine ⟨fun a ha b hb hva hvb hab => ?_, ih h3 fun v' hv' => hmem v' (by simp [hv'])⟩
    have mv : ∀ a, a ∈ l0 ++ l2 → U v a → a ∈ l0 ++ l1 := by
      intro a ha hva
      rcases List.mem_append.1 ha with ha | ha
      · exact List.mem_append_left _ ha
      · exact List.mem_append_right _ (hmem v (by simp) a ha hva)
    exact h1 a (mv a ha hva) b (mv b hb hvb) hva hvb hab

/-- Any clique can be put first in a perfect elimination order (here: at the end of the list). -/
theorem perf_start [DecidableEq V] {U : V → V → Prop} (hsym : ∀ a b, U a b → U b a) :
    ∀ l : List V, l.Nodup → Perf U l → ∀ K : List V, K.Nodup → (∀ a ∈ K, a ∈ l) → Clique U K →
      ∃ l0, (l0 ++ K).Perm l ∧ Perf U (l0 ++ K) := by
  classical
  intro l
  induction l with
  | nil =>
    intro _ _ K _ hK _
    have : K = [] := List.eq_nil_iff_forall_not_mem.2 fun a ha => by simpa using hK a ha
    subst this
    exact ⟨[], List.Perm.refl _, trivial⟩
  | cons v l ih =>
    intro hnd hp K hKn hK hcl
    rw [List.nodup_cons] at hnd
    by_cases hv : v ∈ K
    · -- neighbours of `v` outside `K`
      let N' := l.filter fun a => decide (U v a) && decide (a ∉ K)
      let K' := K.erase v
      have hK' : ∀ a, a ∈ K' ↔ a ≠ v ∧ a ∈ K := fun a => hKn.mem_erase_iff
      have hN' : ∀ a, a ∈ N' ↔ a ∈ l ∧ U v a ∧ a ∉ K := by
        intro a; simp [N', List.mem_filter]
      have nbr : ∀ a, a ∈ N' ++ K' → a ∈ l ∧ U v a := by
        intro a ha
        rcases List.mem_append.1 ha with ha | ha
        · exact ⟨((hN' a).1 ha).1, ((hN' a).1 ha).2.1⟩
        · obtain ⟨h1, h2⟩ := (hK' a).1 ha
          refine ⟨(List.mem_cons.1 (hK a h2)).resolve_left h1, hcl v hv a h2 h1.symm⟩
      have hclN : Clique U (N' ++ K') := by
        intro a ha b hb hab
        obtain ⟨h1, h2⟩ := nbr a ha
        obtain ⟨h3, h4⟩ := nbr b hb
        exact hp.1 a h1 b h3 h2 h4 hab
      have hnodup : (N' ++ K').Nodup := by
        rw [List.nodup_append]
        refine ⟨hnd.2.filter _, hKn.erase v, ?_⟩
        rintro a ha b hb rfl
        exact ((hN' a).1 ha).2.2 ((hK' a).1 hb).2
      obtain ⟨l0, hperm, hperf⟩ := ih hnd.2 hp.2 (N' ++ K') hnodup (fun a ha => (nbr a ha).1) hclN
      have hKp : K.Perm (v :: K') := (List.perm_cons_erase hv)
      refine ⟨l0 ++ N', ?_, ?_⟩
      · have h1 : (l0 ++ N' ++ K).Perm (v :: (l0 ++ (N' ++ K'))) := by
          refine (List.Perm.append_left _ hKp).trans ?_
          rw [← List.append_assoc]
          exact List.perm_middle
        exact h1.trans (hperm.cons v)
      · rw [List.append_assoc]
        refine perf_append (l1 := N' ++ K') hperf (perf_of_clique ?_) ?_
        · intro a ha b hb hab
          have tr : ∀ a, a ∈ N' ++ K → a = v ∨ a ∈ N' ++ K' := by
            intro a ha
            by_cases hav : a = v
            · exact Or.inl hav
            · right
              rcases List.mem_append.1 ha with ha | ha
              · exact List.mem_append_left _ ha
              · exact List.mem_append_right _ ((hK' a).2 ⟨hav, ha⟩)
          rcases tr a ha with rfl | ha'
          · rcases tr b hb with rfl | hb'
            · exact absurd rfl hab
            · exact (nbr b hb').2
          · rcases tr b hb with rfl | hb'
            · exact hsym _ _ (nbr a ha').2
            · exact hclN a ha' b hb' hab
        · intro u hu a ha hua
          rcases List.mem_append.1 ha with ha | ha
          · exact List.mem_append_left _ ha
          · by_cases hav : a = v
            · subst hav
              exfalso
              -- `u` would be a neighbour of `v`, hence in `N' ++ K'`
              have hul : u ∈ l := hperm.mem_iff.1 (List.mem_append_left _ hu)
              have huv : u ∈ N' ++ K' := by
                by_cases huK : u ∈ K
                · refine List.mem_append_right _ ((hK' u).2 ⟨?_, huK⟩)
                  rintro rfl; exact hnd.1 hul
                · exact List.mem_append_left _ ((hN' u).2 ⟨hul, hsym _ _ hua, huK⟩)
              have hd := hperm.nodup_iff.2 hnd.2
              rw [List.nodup_append] at hd
              exact hd.2.2 u hu u huv rfl
            · exact List.mem_append_right _ ((hK' a).2 ⟨hav, ha⟩)
    · obtain ⟨l0, hperm, hperf⟩ := ih hnd.2 hp.2 K hKn (fun a ha =>
        (List.mem_cons.1 (hK a ha)).resolve_left fun h => hv (h ▸ ha)) hcl
      refine ⟨v :: l0, hperm.cons v, ?_, hperf⟩
      intro a ha b hb
      exact hp.1 a (hperm.mem_iff.1 ha) b (hperm.mem_iff.1 hb)

theorem perf_idx [DecidableEq V] {U : V → V → Prop} {l : List V} (h : Perf U l) {v a b : V} (ha : a ∈ l) (hb : b ∈ l)
    (hva : l.idxOf v < l.idxOf a) (hvb : l.idxOf v < l.idxOf b) (h1 : U v a) (h2 : U v b) (hab : a ≠ b) : U a b := by
  induction l with
  | nil => cases ha
  | cons w l ih =>
    obtain ⟨h3, h4⟩ := h
    by_cases hwa : w = a
    · subst hwa; rw [List.idxOf_cons_self] at hva; omega
    by_cases hwb : w = b
    · subst hwb; rw [List.idxOf_cons_self] at hvb; omega
    have ha' : a ∈ l := (List.mem_cons.1 ha).resolve_left (Ne.symm hwa)
    have hb' : b ∈ l := (List.mem_cons.1 hb).resolve_left (Ne.symm hwb)
    by_cases hwv : w = v
    · subst hwv; exact h3 a ha' b hb' h1 h2 hab
    · rw [List.idxOf_cons_ne _ hwv, List.idxOf_cons_ne _ hwa] at hva
      rw [List.idxOf_cons_ne _ hwv, List.idxOf_cons_ne _ hwb] at hvb
      exact ih h4 ha' hb' (by omega) (by omega)

/-- The topological order, read backwards, is a perfect elimination order of the undirected part. -/
theorem Labelling.perf (L : Labelling E C τ) :
    ∀ l : List V, l.Pairwise (fun a b => τ b < τ a) → Perf (Und E C) l := by
  intro l
  induction l with
  | nil => intro _; trivial
  | cons v l ih =>
    intro h
    rw [List.pairwise_cons] at h
    refine ⟨fun a ha b hb hva hvb hab => ?_, ih h.2⟩
    have key : ∀ c ∈ l, Und E C v c → Rev E C c v := by
      intro c hc hvc
      rcases hvc with h1 | h1
      · have := L.topo _ _ h1.1; have := h.1 c hc; omega
      · exact h1
    exact L.rev_clique (key a ha hva) (key b hb hvb) hab

/-- The DAG obtained by orienting the undirected part along another perfect elimination order. -/
def reorient (E C : V → V → Prop) [DecidableEq V] (l : List V) (a b : V) : Prop :=
  C a b ∨ (Und E C a b ∧ l.idxOf b < l.idxOf a)

theorem Labelling.not_c_und (L : Labelling E C τ) {a b : V} (h : C a b) (hu : Und E C a b) : False := by
  rcases hu with h1 | h1
  · exact h1.2 h
  · have := L.topo _ _ h1.1
    have := L.topo _ _ (L.sub _ _ h)
    omega

theorem Labelling.reorient_acyclic [DecidableEq V] (L : Labelling E C τ) (l : List V) : Acyclic (reorient E C l) := by
  classical
  let P (v : V) (k : Nat) : Prop := ∃ u, ReflTransGen (Und E C) v u ∧ τ u = k
  have hP : ∀ v, ∃ k, P v k := fun v => ⟨τ v, v, .refl, rfl⟩
  let m (v : V) : Nat := Nat.find (hP v)
  have hsame : ∀ a b, Und E C a b → m a ≤ m b := by
    intro a b h
    obtain ⟨u, h1, h2⟩ := Nat.find_spec (hP b)
    exact Nat.find_min' (hP a) ⟨u, .head h h1, h2⟩
  have hC : ∀ a b, C a b → m a < m b := by
    intro a b h
    obtain ⟨u, h1, h2⟩ := Nat.find_spec (hP b)
    have hau : C a u := by
      clear h2
      induction h1 with
      | refl => exact h
      | tail _ h3 ih => exact (L.und_parents h3 a).1 ih
    have h3 : m a ≤ τ a := Nat.find_min' (hP a) ⟨a, .refl, rfl⟩
    have h4 := L.topo _ _ (L.sub _ _ hau)
    have h5 : m b = τ u := h2.symm
    omega
  have key : ∀ a b, TransGen (reorient E C l) a b → m a < m b ∨ (m a = m b ∧ l.idxOf b < l.idxOf a) := by
    have one : ∀ a b, reorient E C l a b → m a < m b ∨ (m a = m b ∧ l.idxOf b < l.idxOf a) := by
      rintro a b (h | ⟨h, hi⟩)
      · exact Or.inl (hC a b h)
      · exact Or.inr ⟨le_antisymm (hsame a b h) (hsame b a h.symm), hi⟩
    intro a b h
    induction h with
    | single h => exact one _ _ h
    | tail _ h ih => have := one _ _ h; omega
  intro x hx
  have := key x x hx
  omega

theorem Labelling.reorient_equiv [DecidableEq V] (L : Labelling E C τ) {l : List V} (hall : ∀ a, a ∈ l)
    (hp : Perf (Und E C) l) : MarkovEquiv E (reorient E C l) := by
  have hskel : ∀ a b, Adj E a b ↔ Adj (reorient E C l) a b := by
    have dir : ∀ a b, E a b → Adj (reorient E C l) a b := by
      intro a b h
      by_cases hc : C a b
      · exact Or.inl (Or.inl hc)
      · have hu : Und E C a b := Or.inl ⟨h, hc⟩
        have hne : a ≠ b := by rintro rfl; exact absurd (L.topo _ _ h) (lt_irrefl _)
        have hidx : l.idxOf a ≠ l.idxOf b := fun he => hne ((List.idxOf_inj (hall a)).1 he)
        rcases Nat.lt_or_ge (l.idxOf b) (l.idxOf a) with h1 | h1
        · exact Or.inl (Or.inr ⟨hu, h1⟩)
        · exact Or.inr (Or.inr ⟨hu.symm, by omega⟩)
    have inv : ∀ a b, reorient E C l a b → Adj E a b := by
      rintro a b (h | ⟨h | h, -⟩)
      · exact Or.inl (L.sub _ _ h)
      · exact Or.inl h.1
      · exact Or.inr h.1
    intro a b
    constructor
    · rintro (h | h)
      · exact dir a b h
      · exact (dir b a h).symm
    · rintro (h | h)
      · exact inv a b h
      · exact (inv b a h).symm
  have mixed : ∀ {a b c}, C a b → Und E C c b → Adj E a c := by
    intro a b c h hu
    exact Or.inl (L.sub _ _ ((L.und_parents hu a).2 h))
  refine ⟨hskel, fun a b c => ⟨?_, ?_⟩⟩
  · rintro ⟨hne, hna, hab, hcb⟩
    have hca : C a b := by
      by_contra h1
      have hu : Rev E C a b := ⟨hab, h1⟩
      by_cases h2 : C c b
      · exact hna (mixed h2 (Or.inl hu)).symm
      · rcases L.rev_clique hu ⟨hcb, h2⟩ hne with h | h
        · exact hna (Or.inl h.1)
        · exact hna (Or.inr h.1)
    have hcc : C c b := by
      by_contra h2
      exact hna (mixed hca (Or.inl ⟨hcb, h2⟩))
    exact ⟨hne, fun h => hna ((hskel a c).2 h), Or.inl hca, Or.inl hcc⟩
  · rintro ⟨hne, hna, hab, hcb⟩
    have hna' : ¬ Adj E a c := fun h => hna ((hskel a c).1 h)
    rcases hab with hab | ⟨hab, hia⟩
    · rcases hcb with hcb | ⟨hcb, hic⟩
      · exact ⟨hne, hna', L.sub _ _ hab, L.sub _ _ hcb⟩
      · exact absurd (mixed hab hcb) hna'
    · rcases hcb with hcb | ⟨hcb, hic⟩
      · exact absurd (mixed hcb hab).symm hna'
      · have := perf_idx hp (hall a) (hall c) hia hic hab.symm hcb.symm hne
        rcases this with h | h
        · exact absurd (Or.inl h.1) hna'
        · exact absurd (Or.inr h.1) hna'

/-- **Completeness**: an edge that is not labelled compelled is reversed in some Markov-equivalent DAG. -/
theorem Labelling.complete [DecidableEq V] (L : Labelling E C τ) {l : List V} (hn : l.Nodup) (hall : ∀ a, a ∈ l)
    (hsort : l.Pairwise fun a b => τ b < τ a) {z y : V} (h : Rev E C z y) :
    ∃ F, Acyclic F ∧ MarkovEquiv E F ∧ F y z := by
  have hne : z ≠ y := by rintro rfl; exact absurd (L.topo _ _ h.1) (lt_irrefl _)
  obtain ⟨l0, hperm, hperf⟩ := perf_start (fun _ _ h => Und.symm h) l hn (L.perf l hsort) [z, y] (by simp [hne])
    (fun a _ => hall a) (by
      intro a ha b hb hab
      simp only [List.mem_cons, List.not_mem_nil, or_false] at ha hb
      rcases ha with rfl | rfl <;> rcases hb with rfl | rfl
      · exact absurd rfl hab
      · exact Or.inl h
      · exact Or.inr h
      · exact absurd rfl hab)
  have hall' : ∀ a, a ∈ l0 ++ [z, y] := fun a => hperm.mem_iff.2 (hall a)
  refine ⟨reorient E C (l0 ++ [z, y]), L.reorient_acyclic _, L.reorient_equiv hall' hperf, Or.inr ⟨Or.inr h, ?_⟩⟩
  have hd := hperm.nodup_iff.2 hn
  rw [List.nodup_append] at hd
  have hz : z ∉ l0 := fun h => hd.2.2 z h z (by simp) rfl
  have hy : y ∉ l0 := fun h => hd.2.2 y h y (by simp) rfl
  rw [List.idxOf_append_of_notMem hz, List.idxOf_append_of_notMem hy, List.idxOf_cons_self, List.idxOf_cons_ne _ hne]
  omega

/-- A labelled edge is compelled exactly when all Markov-equivalent DAGs agree on it. -/
theorem Labelling.iff [DecidableEq V] (L : Labelling E C τ) {l : List V} (hn : l.Nodup) (hall : ∀ a, a ∈ l)
    (hsort : l.Pairwise fun a b => τ b < τ a) (z y : V) :
    C z y ↔ E z y ∧ ∀ F, Acyclic F → MarkovEquiv E F → F z y := by
  constructor
  · exact fun h => ⟨L.sub _ _ h, fun F hF he => L.sound hF he h⟩
  · rintro ⟨hE, h⟩
    by_contra hc
    obtain ⟨F, h1, h2, h3⟩ := L.complete hn hall hsort ⟨hE, hc⟩
    exact h1.asymm h3 (h F h1 h2)

end Spec
