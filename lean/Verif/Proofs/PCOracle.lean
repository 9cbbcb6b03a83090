import Verif.Proofs.PC
import Verif.Proofs.DSep
import Verif.Props.Skeleton

/-!
# Lemmas for PC with a correct CI test
-/
namespace CL
open GG Relation Spec
variable {n : Nat} {P : Type} [LinearOrder P]

/-- `G` has the skeleton of `D` and every arrowhead of `G` agrees with `D`. -/
structure PInv (D : Fin n → Fin n → Prop) (G : GG n) : Prop where
  pd : PD G
  adj : ∀ a b, G.g a b ≠ .null ↔ Adj D a b
  arrow : ∀ a b, G.g b a = .arrow → D a b

theorem PInv.tail {D : Fin n → Fin n → Prop} {G : GG n} (hac : Acyclic D) (h : PInv D G) {a b : Fin n}
    (hab : G.g b a = .arrow) : G.g a b = .tail := by
  have h1 := h.arrow a b hab
  rcases h.pd.mark a b with h2 | h2 | h2
  · have := h.pd.symm a b h2; rw [this] at hab; simp at hab
  · exact h2
  · exact absurd (h.arrow b a h2) (hac.asymm h1)

/-- an edge `a → b` of `D` is shown in `G` with a tail at `a` -/
theorem PInv.tail_of {D : Fin n → Fin n → Prop} {G : GG n} (hac : Acyclic D) (h : PInv D G) {a b : Fin n}
    (hab : D a b) : G.g a b = .tail ∧ (G.g b a = .tail ∨ G.g b a = .arrow) := by
  have h1 : G.g a b ≠ .null := (h.adj a b).2 (Or.inl hab)
  have h2 : G.g b a ≠ .null := (h.adj b a).2 (Or.inr hab)
  refine ⟨?_, (h.pd.mark b a).resolve_left h2⟩
  rcases h.pd.mark a b with h3 | h3 | h3
  · exact absurd h3 h1
  · exact h3
  · exact absurd (h.arrow b a h3) (hac.asymm hab)

theorem PInv.of_oriented {D : Fin n → Fin n → Prop} {G H : GG n} (hac : Acyclic D) (h : PInv D G) {a b : Fin n}
    (hab : D a b) (hg : H.g = oriented G.g a b) : PInv D H := by
  have hne : a ≠ b := hac.ne_of_adj (Or.inl hab)
  have h1 := (h.adj a b).2 (Or.inl hab)
  have h2 := (h.adj b a).2 (Or.inr hab)
  refine ⟨h.pd.of_oriented hne hg, ?_, ?_⟩
  · intro x y
    rw [← h.adj x y, hg]
    unfold oriented
    grind
  · intro x y hxy
    rw [hg] at hxy
    unfold oriented at hxy
    have := h.arrow x y
    grind

theorem oriented_of_arrow {g : MMat n} {x y : Fin n} (h1 : g x y = .tail) (h2 : g y x = .arrow) : oriented g x y = g := by
  funext a b; unfold oriented; grind

/-- Whatever the priority, accepting a true v-structure writes exactly its two arrowheads. -/
theorem colliderBy_exact {D : Fin n → Fin n → Prop} (hac : Acyclic D) (prio : Nat) {G : GG n} (h : PInv D G)
    {x y z : Fin n} (hc : Collider D x y z) :
    (colliderBy prio G (x, y, z)).g = oriented (oriented G.g x y) z y := by
  have hxy := hac.ne_of_adj (Or.inl hc.1 : Adj D x y)
  have hzy := hac.ne_of_adj (Or.inl hc.2 : Adj D z y)
  have h2 : ∀ H : GG n, H.g = oriented G.g x y → PInv D H := fun H hH => h.of_oriented hac hc.1 hH
  unfold colliderBy
  dsimp only
  split
  · unfold collider0
    dsimp only
    have hg1 := overwriteDirected_g h.pd hxy
    have hp1 := (h2 _ hg1).pd
    rw [addDirected_cleared hzy (G := G.overwriteDirected x y), hg1]
    rw [removeIfEdge_pd_g (hp1.of_cleared (removeIfEdge_pd_g hp1 y z)), removeIfEdge_pd_g hp1, cleared_cleared, cleared_symm]
  · split
    · unfold collider1
      have key : ∀ (H : GG n) (hH : PInv D H) (u v : Fin n), D u v → (H.orientBi u v).g = oriented H.g u v := by
        intro H hH u v huv
        obtain ⟨t1, t2⟩ := hH.tail_of hac huv
        rw [orientBi_g hH.pd (by rw [t1]; simp)]
        rcases t2 with t2 | t2
        · rw [if_pos ⟨t1, t2⟩]
        · rw [if_neg (by rw [t2]; simp), if_neg (by rw [t2]; simp), oriented_of_arrow t1 t2]
      rw [key _ (h2 _ (key G h x y hc.1)) z y hc.2, key G h x y hc.1]
    · unfold collider2
      obtain ⟨t1, -⟩ := h.tail_of hac hc.1
      obtain ⟨t2, -⟩ := h.tail_of hac hc.2
      rw [if_pos]
      · rw [setDirected_g (h2 _ (setDirected_g h.pd hxy)).pd hzy, setDirected_g h.pd hxy]
      · simp [isFullyDirected, t1, t2]

theorem Sound.colliderBy {G : GG n} (hs : Sound G) (prio : Nat) (t : Fin n × Fin n × Fin n) : Sound (colliderBy prio G t) := by
  unfold CL.colliderBy
  split
  · unfold GG.collider0
    exact (((hs.overwriteDirected _ _).removeIfEdge _ _).removeIfEdge _ _).addEdge _
  · split
    · unfold GG.collider1
      exact (hs.orientBi _ _).orientBi _ _
    · unfold GG.collider2
      split
      · exact (hs.setDirected _ _).setDirected _ _
      · exact hs

theorem collider2_eq (G : GG n) (t : Fin n × Fin n × Fin n) : G.collider2 t.1 t.2.1 t.2.2 = colliderBy 2 G t := rfl

/-- Processing a list of true v-structures, each step writing the two arrowheads, writes exactly those arrowheads. -/
theorem foldUC {D : Fin n → Fin n → Prop} (hac : Acyclic D) (step : GG n → Fin n × Fin n × Fin n → GG n)
    (l : List (Fin n × Fin n × Fin n)) (hl : ∀ t ∈ l, Collider D t.1 t.2.1 t.2.2)
    (hstep : ∀ G, PInv D G → Sound G → ∀ t ∈ l,
      (step G t).g = oriented (oriented G.g t.1 t.2.1) t.2.2 t.2.1 ∧ Sound (step G t))
    (G : GG n) (h : PInv D G) (hs : Sound G) :
    PInv D (l.foldl step G) ∧ Sound (l.foldl step G) ∧
    ∀ a b, (l.foldl step G).g b a = .arrow ↔ G.g b a = .arrow ∨ ∃ t ∈ l, t.2.1 = b ∧ (t.1 = a ∨ t.2.2 = a) := by
  induction l generalizing G with
  | nil => simp [h, hs]
  | cons t l ih =>
    obtain ⟨hg, hs'⟩ := hstep G h hs t (by simp)
    have hc := hl t (by simp)
    have h1 : PInv D (⟨oriented G.g t.1 t.2.1, G.dp⟩ : GG n) := h.of_oriented hac hc.1 rfl
    have h' : PInv D (step G t) := h1.of_oriented hac hc.2 hg
    obtain ⟨i1, i2, i3⟩ := ih (fun t' ht' => hl t' (by simp [ht']))
      (fun G hG hs t' ht' => hstep G hG hs t' (by simp [ht'])) (step G t) h' hs'
    refine ⟨i1, i2, ?_⟩
    intro a b
    have hxy := hac.ne_of_adj (Or.inl hc.1 : Adj D t.1 t.2.1)
    have hzy := hac.ne_of_adj (Or.inl hc.2 : Adj D t.2.2 t.2.1)
    rw [List.foldl_cons, i3, hg]
    have hno : ∀ u v, D u v → G.g u v = .tail := fun u v huv => (h.tail_of hac huv).1
    have e1 := hno _ _ hc.1
    have e2 := hno _ _ hc.2
    have : oriented (oriented G.g t.1 t.2.1) t.2.2 t.2.1 b a = .arrow ↔
        G.g b a = .arrow ∨ (t.2.1 = b ∧ (t.1 = a ∨ t.2.2 = a)) := by
      unfold oriented
      grind
    rw [this]
    simp only [List.mem_cons]
    grind

theorem mem_sortAsc {α K : Type} [LinearOrder K] (l : List (α × K)) (x : α × K) : x ∈ sortAsc l ↔ x ∈ l := by
  unfold sortAsc; exact (List.perm_insertionSort _ l).mem_iff

theorem mem_sortDesc {α K : Type} [LinearOrder K] (l : List (α × K)) (x : α × K) : x ∈ sortDesc l ↔ x ∈ l := by
  unfold sortDesc; exact (List.perm_insertionSort _ l).mem_iff

theorem mem_sortAsc_fst {α K : Type} [LinearOrder K] (l : List α) (f : α → K) (x : α) :
    x ∈ (sortAsc (l.map fun t => (t, f t))).map Prod.fst ↔ x ∈ l := by
  simp [mem_sortAsc]

theorem mem_sortDesc_fst {α K : Type} [LinearOrder K] (l : List α) (f : α → K) (x : α) :
    x ∈ (sortDesc (l.map fun t => (t, f t))).map Prod.fst ↔ x ∈ l := by
  simp [mem_sortDesc]

/-- Background knowledge that is true of `D`. -/
structure Know.TrueOf (k : Know n) (D : Fin n → Fin n → Prop) : Prop where
  forb : ∀ a b, k.forb a b = true → ¬ D a b
  req : ∀ a b, k.req a b = true → D a b

theorem blocksUC_false {k : Know n} {D : Fin n → Fin n → Prop} (hac : Acyclic D) (hk : k.TrueOf D) {x y z : Fin n}
    (hc : Collider D x y z) : k.blocksUC x y z = false := by
  by_contra h
  simp only [Know.blocksUC, Bool.not_eq_false, Bool.or_eq_true] at h
  rcases h with ((h | h) | h) | h
  · exact hk.forb _ _ h hc.1
  · exact hk.forb _ _ h hc.2
  · exact hac.asymm hc.1 (hk.req _ _ h)
  · exact hac.asymm hc.2 (hk.req _ _ h)

/-- `l` lists exactly the v-structures of `D` (once in each orientation at least). -/
def ListsUC (D : Fin n → Fin n → Prop) (l : List (Fin n × Fin n × Fin n)) : Prop :=
  (∀ t ∈ l, UnshieldedCollider D t.1 t.2.1 t.2.2) ∧
  ∀ x y z, UnshieldedCollider D x y z → (x, y, z) ∈ l ∨ (z, y, x) ∈ l

/-- Outcome of the collider phase. -/
structure UCDone (D : Fin n → Fin n → Prop) (G H : GG n) : Prop where
  inv : PInv D H
  sound : Sound H
  arrow : ∀ a b, H.g b a = .arrow ↔ G.g b a = .arrow ∨ ∃ z, UnshieldedCollider D a b z

theorem UnshieldedCollider.symm {D : Fin n → Fin n → Prop} {x y z : Fin n} (h : UnshieldedCollider D x y z) :
    UnshieldedCollider D z y x := ⟨h.1.symm, fun h' => h.2.1 h'.symm, h.2.2.symm⟩

theorem ucDone_of_fold {D : Fin n → Fin n → Prop} (hac : Acyclic D) (step : GG n → Fin n × Fin n × Fin n → GG n)
    (l : List (Fin n × Fin n × Fin n)) (hl : ListsUC D l)
    (hstep : ∀ G, PInv D G → Sound G → ∀ t ∈ l,
      (step G t).g = oriented (oriented G.g t.1 t.2.1) t.2.2 t.2.1 ∧ Sound (step G t))
    (G : GG n) (h : PInv D G) (hs : Sound G) : UCDone D G (l.foldl step G) := by
  obtain ⟨h1, h2, h3⟩ := foldUC hac step l (fun t ht => (hl.1 t ht).2.2) hstep G h hs
  refine ⟨h1, h2, fun a b => ?_⟩
  rw [h3]
  constructor
  · rintro (h | ⟨t, ht, rfl, rfl | rfl⟩)
    · exact Or.inl h
    · exact Or.inr ⟨_, hl.1 t ht⟩
    · exact Or.inr ⟨_, (UnshieldedCollider.symm (hl.1 t ht))⟩
  · rintro (h | ⟨z, hz⟩)
    · exact Or.inl h
    · right
      rcases hl.2 a b z hz with h | h
      · exact ⟨_, h, rfl, Or.inl rfl⟩
      · exact ⟨_, h, rfl, Or.inr rfl⟩

theorem lateLoop_done {D : Fin n → Fin n → Prop} (hac : Acyclic D) {k : Know n} (hk : k.TrueOf D)
    (l : List (Fin n × Fin n × Fin n)) (hl : ListsUC D l) (G : GG n) (h : PInv D G) (hs : Sound G) :
    UCDone D G (lateLoop k l G) := by
  unfold lateLoop
  apply ucDone_of_fold hac _ l hl _ G h hs
  intro H hH hsH t ht
  have hc := (hl.1 t ht).2.2
  rw [blocksUC_false hac hk hc]
  simp only [Bool.false_eq_true, if_false, collider2_eq]
  exact ⟨colliderBy_exact hac 2 hH hc, hsH.colliderBy 2 t⟩

/-- `ListsUC` from a decision rule that is right on every unshielded triple -/
theorem listsUC_of_filter {D : Fin n → Fin n → Prop} {G : GG n} (h : PInv D G)
    (p : Fin n × Fin n × Fin n → Bool)
    (hp : ∀ x y z, x ≠ z → Adj D x y → Adj D z y → ¬ Adj D x z → (p (x, y, z) = true ↔ Collider D x y z)) :
    ListsUC D ((orderedUT G).filter p) := by
  have hm := mem_orderedUT h.pd
  constructor
  · rintro ⟨x, y, z⟩ ht
    obtain ⟨h1, h2⟩ := List.mem_filter.1 ht
    obtain ⟨hlt, h3, h4, h5⟩ := (hm x y z).1 h1
    have hna : ¬ Adj D x z := fun ha => (h.adj x z).2 ha h5
    have hne := ne_of_lt hlt
    exact ⟨hne, hna, (hp x y z hne ((h.adj _ _).1 h3) ((h.adj _ _).1 h4).symm hna).1 h2⟩
  · intro x y z hu
    have key : ∀ x z, x < z → UnshieldedCollider D x y z → (x, y, z) ∈ (orderedUT G).filter p := by
      intro x z hlt hu
      have h5 : G.g x z = .null := by
        by_contra hc; exact hu.2.1 ((h.adj x z).1 hc)
      rw [List.mem_filter]
      exact ⟨(hm x y z).2 ⟨hlt, (h.adj _ _).2 (Or.inl hu.2.2.1), (h.adj _ _).2 (Or.inr hu.2.2.2), h5⟩,
        (hp x y z hu.1 (Or.inl hu.2.2.1) (Or.inl hu.2.2.2) hu.2.1).2 hu.2.2⟩
    rcases lt_or_gt_of_ne hu.1 with hlt | hgt
    · exact Or.inl (key x z hlt hu)
    · exact Or.inr (key z x hgt (UnshieldedCollider.symm hu))

theorem ListsUC.congr {D : Fin n → Fin n → Prop} {l l' : List (Fin n × Fin n × Fin n)} (h : ListsUC D l)
    (hm : ∀ t, t ∈ l' ↔ t ∈ l) : ListsUC D l' :=
  ⟨fun t ht => h.1 t ((hm t).1 ht), fun x y z hu => (h.2 x y z hu).imp (hm _).2 (hm _).2⟩

theorem ucSepset_done {D : Fin n → Fin n → Prop} (hac : Acyclic D) {k : Know n} (hk : k.TrueOf D) (T : TestFn n P)
    (prio : Nat) {G : GG n} (h : PInv D G) (hs : Sound G) (sep : Sep n)
    (hsep : ∀ x y z, x ≠ z → Adj D x y → Adj D z y → ¬ Adj D x z →
      (sepAvoids sep (x, y, z) = true ↔ Collider D x y z)) :
    UCDone D G (ucSepset T prio k G sep) := by
  have hl : ListsUC D ((orderedUT G).filter fun t => !k.blocksUC t.1 t.2.1 t.2.2 && sepAvoids sep t) := by
    apply listsUC_of_filter h
    intro x y z hxz hxy hzy hna
    rw [Bool.and_eq_true, hsep x y z hxz hxy hzy hna]
    constructor
    · exact fun h => h.2
    · intro hc
      exact ⟨by simp [blocksUC_false hac hk hc], hc⟩
  unfold ucSepset
  dsimp only
  split
  · apply ucDone_of_fold hac _ _ hl _ G h hs
    intro H hH hsH t ht
    exact ⟨colliderBy_exact hac prio hH (hl.1 t ht).2.2, hsH.colliderBy prio t⟩
  · split
    · exact lateLoop_done hac hk _ (hl.congr fun t => mem_sortAsc_fst _ _ t) G h hs
    · exact lateLoop_done hac hk _ (hl.congr fun t => mem_sortDesc_fst _ _ t) G h hs

/-! ### Meek soundness -/

/-- All v-structures of `D` are oriented in `G`, and `G` agrees with `D`. -/
structure MInv (D : Fin n → Fin n → Prop) (G : GG n) : Prop where
  inv : PInv D G
  sound : Sound G
  uc : ∀ x y z, UnshieldedCollider D x y z → G.g y x = .arrow

theorem UCDone.minv {D : Fin n → Fin n → Prop} {G H : GG n} (h : UCDone D G H) : MInv D H :=
  ⟨h.inv, h.sound, fun x y z hu => (h.arrow x y).2 (Or.inr ⟨z, hu⟩)⟩

theorem MInv.tryOrient {D : Fin n → Fin n → Prop} (hac : Acyclic D) {k : Know n} {st : GG n × Bool} (h : MInv D st.1)
    {a c : Fin n} (hu : st.1.isUndirected a c = true) (hD : D a c) : MInv D (tryOrient k st a c).1 := by
  rcases tryOrient_spec (k := k) h.inv.pd h.sound hu with ⟨h1, -⟩ | ⟨-, h2, h3, h4, -⟩
  · rw [h1]; exact h
  · refine ⟨h.inv.of_oriented hac hD h2, h4, ?_⟩
    intro x y z hz
    have := h.uc x y z hz
    rw [h2]; unfold oriented
    have hac' := hac.asymm hD
    have := hz.2.2.1
    have hne := hac.ne_of_adj (Or.inl hD : Adj D a c)
    grind

/-- rule 1 fires only on true edges -/
theorem rule1_true {D : Fin n → Fin n → Prop} {G : GG n} (h : MInv D G) {i j l : Fin n} (hil : i ≠ l)
    (hna : ¬ Adj D i l) (h1 : G.isFullyDirected i j = true) (h2 : G.isUndirected j l = true) : D j l := by
  simp only [isFullyDirected, isUndirected, Bool.and_eq_true, beq_iff_eq] at h1 h2
  have hij := h.inv.arrow i j h1.2
  have hjl : Adj D j l := (h.inv.adj j l).1 (by rw [h2.1]; simp)
  rcases hjl with hjl | hjl
  · exact hjl
  · have := h.uc l j i ⟨hil.symm, fun h' => hna h'.symm, hjl, hij⟩
    rw [h2.1] at this; simp at this

theorem rule2_true {D : Fin n → Fin n → Prop} (hac : Acyclic D) {G : GG n} (h : MInv D G) {i j l : Fin n}
    (h1 : G.isFullyDirected i j = true) (h2 : G.isFullyDirected j l = true) (h3 : G.isUndirected i l = true) : D i l := by
  simp only [isFullyDirected, isUndirected, Bool.and_eq_true, beq_iff_eq] at h1 h2 h3
  have hij := h.inv.arrow i j h1.2
  have hjl := h.inv.arrow j l h2.2
  have hil : Adj D i l := (h.inv.adj i l).1 (by rw [h3.1]; simp)
  rcases hil with hil | hil
  · exact hil
  · exact absurd (((TransGen.single hij).tail hjl).tail hil) (hac i)

theorem rule3_true {D : Fin n → Fin n → Prop} (hac : Acyclic D) {G : GG n} (h : MInv D G) {i j l m : Fin n} (hjl : j ≠ l)
    (hna : ¬ Adj D j l) (h1 : G.isUndirected i j = true) (h2 : G.isUndirected i l = true)
    (h3 : D j m) (h4 : D l m) (h5 : G.isUndirected i m = true) : D i m := by
  simp only [isUndirected, Bool.and_eq_true, beq_iff_eq] at h1 h2 h5
  have hij : Adj D i j := (h.inv.adj i j).1 (by rw [h1.1]; simp)
  have hil : Adj D i l := (h.inv.adj i l).1 (by rw [h2.1]; simp)
  have him : Adj D i m := (h.inv.adj i m).1 (by rw [h5.1]; simp)
  rcases him with him | him
  · exact him
  · have e1 : D j i := by
      rcases hij with hij | hij
      · exact absurd (((TransGen.single hij).tail h3).tail him) (hac i)
      · exact hij
    have e2 : D l i := by
      rcases hil with hil | hil
      · exact absurd (((TransGen.single hil).tail h4).tail him) (hac i)
      · exact hil
    have := h.uc j i l ⟨hjl, hna, e1, e2⟩
    rw [h1.1] at this; simp at this

theorem fold_inv {α β : Type} (Q : β → Prop) (f : β → α → β) (l : List α) (hf : ∀ b, Q b → ∀ t ∈ l, Q (f b t)) (b : β)
    (hb : Q b) : Q (l.foldl f b) := by
  induction l generalizing b with
  | nil => exact hb
  | cons t l ih =>
    exact ih (fun b hb t' ht' => hf b hb t' (by simp [ht'])) _ (hf b hb t (by simp))

/-- scans of the graph the Meek phase starts from, in terms of `D` -/
structure Scans (D : Fin n → Fin n → Prop) (UT Tri : List (Fin n × Fin n × Fin n))
    (Kite : List (Fin n × Fin n × Fin n × Fin n)) : Prop where
  ut : ∀ i j l, (i, j, l) ∈ UT ↔ Adj D i j ∧ Adj D j l ∧ i ≠ l ∧ ¬ Adj D i l
  tri : ∀ i j l, (i, j, l) ∈ Tri ↔ Adj D i j ∧ Adj D j l ∧ Adj D i l
  kite : ∀ i j l m, (i, j, l, m) ∈ Kite ↔ j < l ∧ ¬ Adj D j l ∧ Adj D i j ∧ Adj D i l ∧ Adj D i m ∧ Adj D j m ∧ Adj D l m

theorem PInv.scans {D : Fin n → Fin n → Prop} {G : GG n} (h : PInv D G) :
    Scans D G.unshieldedTriples G.triangles G.kites := by
  have hn : ∀ a b, G.g a b = .null ↔ ¬ Adj D a b := fun a b => by rw [← h.adj a b]; simp
  refine ⟨fun i j l => ?_, fun i j l => ?_, fun i j l m => ?_⟩
  · rw [mem_unshieldedTriples h.pd, h.adj, h.adj, hn]
  · rw [mem_triangles h.pd, h.adj, h.adj, h.adj]
  · rw [mem_kites h.pd, hn, h.adj, h.adj, h.adj, h.adj, h.adj]

theorem meek1_minv {D : Fin n → Fin n → Prop} (hac : Acyclic D) {k : Know n} {UT Tri Kite} (hsc : Scans D UT Tri Kite)
    (st : GG n × Bool) (h : MInv D st.1) (t) (ht : t ∈ UT) : MInv D (meek1 k st t).1 := by
  obtain ⟨i, j, l⟩ := t
  obtain ⟨-, -, h3, h4⟩ := (hsc.ut i j l).1 ht
  unfold meek1
  dsimp only
  split
  · rename_i hc
    simp only [Bool.and_eq_true] at hc
    exact h.tryOrient hac hc.2 (rule1_true h h3 h4 hc.1 hc.2)
  · exact h

theorem meek2_minv {D : Fin n → Fin n → Prop} (hac : Acyclic D) {k : Know n}
    (st : GG n × Bool) (h : MInv D st.1) (t) : MInv D (meek2 k st t).1 := by
  obtain ⟨i, j, l⟩ := t
  unfold meek2
  dsimp only
  split
  · rename_i hc
    simp only [Bool.and_eq_true] at hc
    exact h.tryOrient hac hc.2 (rule2_true hac h hc.1.1 hc.1.2 hc.2)
  · exact h

theorem meek3_minv {D : Fin n → Fin n → Prop} (hac : Acyclic D) {k : Know n} {UT Tri Kite} (hsc : Scans D UT Tri Kite)
    (st : GG n × Bool) (h : MInv D st.1) (t) (ht : t ∈ Kite) : MInv D (meek3 k st t).1 := by
  obtain ⟨i, j, l, m⟩ := t
  obtain ⟨h1, h2, -⟩ := (hsc.kite i j l m).1 ht
  unfold meek3
  dsimp only
  split
  · rename_i hc
    simp only [Bool.and_eq_true] at hc
    obtain ⟨⟨⟨⟨c1, c2⟩, c3⟩, c4⟩, c5⟩ := hc
    simp only [isFullyDirected, Bool.and_eq_true, beq_iff_eq] at c3 c4
    exact h.tryOrient hac c5
      (rule3_true hac h (ne_of_lt h1) h2 c1 c2 (h.inv.arrow _ _ c3.2) (h.inv.arrow _ _ c4.2) c5)
  · exact h

theorem meekLoop_minv {D : Fin n → Fin n → Prop} (hac : Acyclic D) {k : Know n} {UT Tri Kite} (hsc : Scans D UT Tri Kite)
    (f : Nat) (G H : GG n) (h : MInv D G) (hr : meekLoop k UT Tri Kite f G = some H) : MInv D H := by
  induction f generalizing G with
  | zero => simp [meekLoop] at hr
  | succ f ih =>
    have hpass : MInv D (meekPass k UT Tri Kite G).1 := by
      unfold meekPass
      apply fold_inv (fun st : GG n × Bool => MInv D st.1) _ _ (fun st hst t ht => meek3_minv hac hsc st hst t ht)
      apply fold_inv (fun st : GG n × Bool => MInv D st.1) _ _ (fun st hst t _ => meek2_minv hac st hst t)
      exact fold_inv (fun st : GG n × Bool => MInv D st.1) _ _ (fun st hst t ht => meek1_minv hac hsc st hst t ht) _ h
    rw [meekLoop] at hr
    split at hr
    · exact ih _ hpass hr
    · simp at hr; rw [← hr]; exact hpass

/-- Closed under the three Meek rules. -/
structure MeekClosed (G : GG n) : Prop where
  r1 : ∀ i j l, i ≠ l → G.g i l = .null → G.Arrow i j → ¬ (G.g j l = .tail ∧ G.g l j = .tail)
  r2 : ∀ i j l, G.Arrow i j → G.Arrow j l → ¬ (G.g i l = .tail ∧ G.g l i = .tail)
  r3 : ∀ i j l m, j ≠ l → G.g j l = .null → G.g i j = .tail → G.g j i = .tail → G.g i l = .tail → G.g l i = .tail →
    G.Arrow j m → G.Arrow l m → ¬ (G.g i m = .tail ∧ G.g m i = .tail)

theorem parPath_D {D : Fin n → Fin n → Prop} {G : GG n} (h : PInv D G) {a b : Fin n} (hp : ParPath G a b) :
    ReflTransGen D a b := by
  refine ReflTransGen.mono ?_ _ _ hp
  intro x y hxy
  simp only [isParentOf, Bool.or_eq_true, Bool.and_eq_true, beq_iff_eq] at hxy
  rcases hxy with hxy | hxy
  · exact h.arrow x y hxy.1
  · have := h.pd.mark x y; rw [hxy] at this; simp at this

/-- a true orientation is never refused -/
theorem not_blocked {D : Fin n → Fin n → Prop} (hac : Acyclic D) {k : Know n} (hk : k.TrueOf D) {G : GG n} (h : MInv D G)
    {a c : Fin n} (hu : G.isUndirected a c = true) (hD : D a c) : tryOrient k (G, false) a c ≠ (G, false) := by
  intro he
  rcases tryOrient_spec (k := k) (st := (G, false)) h.inv.pd h.sound hu with ⟨-, h1⟩ | ⟨h1, -⟩
  · rcases h1 with h1 | h1 | h1
    · exact hk.forb _ _ h1 hD
    · exact hac.asymm hD (hk.req _ _ h1)
    · have := parPath_D h.inv (h.sound.2 c a h1)
      exact hac a (TransGen.head' hD this)
  · rw [he] at h1; simp at h1

/-- The whole Meek phase on a graph that agrees with `D` and shows all v-structures. -/
theorem meek_oracle {D : Fin n → Fin n → Prop} (hac : Acyclic D) {k : Know n} (hk : k.TrueOf D) {G : GG n} (h : MInv D G) :
    ∃ H, meek k G = some H ∧ MInv D H ∧ Refines G H ∧ MeekClosed H := by
  obtain ⟨H, h1, h2, h3, h4, h5, h6, h7⟩ := meekLoop_spec k G.unshieldedTriples G.triangles G.kites (n * n + 1) G h.inv.pd
    h.sound (Nat.lt_succ_of_le (undCount_le G))
  have hsc := h.inv.scans
  have hM := meekLoop_minv hac hsc _ G H h h1
  have hU : ∀ a b, H.isUndirected a b = true ↔ H.g a b = .tail ∧ H.g b a = .tail := by intro a b; simp [isUndirected]
  have hF : ∀ a b, H.isFullyDirected a b = true ↔ H.Arrow a b := by intro a b; simp [isFullyDirected, Arrow]
  have hadj : ∀ a b, H.g a b = .tail → Adj D a b := fun a b hab => (hM.inv.adj a b).1 (by rw [hab]; simp)
  refine ⟨H, h1, hM, h4, ?_, ?_, ?_⟩
  · intro i j l hil hn hij hjl
    have hna : ¬ Adj D i l := fun ha => (hM.inv.adj i l).2 ha hn
    have ht := h5 (i, j, l) ((hsc.ut i j l).2 ⟨hadj _ _ hij.1, hadj _ _ hjl.1, hil, hna⟩)
    unfold meek1 at ht
    dsimp only at ht
    have c1 := (hF i j).2 hij
    have c2 := (hU j l).2 hjl
    rw [if_pos (by simp [c1, c2])] at ht
    exact not_blocked hac hk hM c2 (rule1_true hM hil hna c1 c2) ht
  · intro i j l hij hjl hil
    have ht := h6 (i, j, l) ((hsc.tri i j l).2 ⟨hadj _ _ hij.1, hadj _ _ hjl.1, hadj _ _ hil.1⟩)
    unfold meek2 at ht
    dsimp only at ht
    have c1 := (hF i j).2 hij
    have c2 := (hF j l).2 hjl
    have c3 := (hU i l).2 hil
    rw [if_pos (by simp [c1, c2, c3])] at ht
    exact not_blocked hac hk hM c3 (rule2_true hac hM c1 c2 c3) ht
  · have key : ∀ i j l m, j < l → H.g j l = .null → H.g i j = .tail → H.g j i = .tail → H.g i l = .tail →
        H.g l i = .tail → H.Arrow j m → H.Arrow l m → ¬ (H.g i m = .tail ∧ H.g m i = .tail) := by
      intro i j l m hlt hn hij hji hil hli hjm hlm him
      have hna : ¬ Adj D j l := fun ha => (hM.inv.adj j l).2 ha hn
      have ht := h7 (i, j, l, m) ((hsc.kite i j l m).2
        ⟨hlt, hna, hadj _ _ hij, hadj _ _ hil, hadj _ _ him.1, hadj _ _ hjm.1, hadj _ _ hlm.1⟩)
      unfold meek3 at ht
      dsimp only at ht
      have c1 := (hU i j).2 ⟨hij, hji⟩
      have c2 := (hU i l).2 ⟨hil, hli⟩
      have c3 := (hF j m).2 hjm
      have c4 := (hF l m).2 hlm
      have c5 := (hU i m).2 him
      rw [if_pos (by simp [c1, c2, c3, c4, c5])] at ht
      exact not_blocked hac hk hM c5
        (rule3_true hac hM (ne_of_lt hlt) hna c1 c2 (hM.inv.arrow _ _ hjm.2) (hM.inv.arrow _ _ hlm.2) c5) ht
    intro i j l m hne hn hij hji hil hli hjm hlm him
    rcases lt_or_gt_of_ne hne with hlt | hgt
    · exact key i j l m hlt hn hij hji hil hli hjm hlm him
    · exact key i l j m hgt (hM.inv.pd.symm _ _ hn) hil hli hij hji hlm hjm him

end CL
