import Verif.Props.Pdag2Dag

/-!
# Graph theory behind GES: extensions of essential graphs with prescribed parents

Abstract part (no code). `E` is a DAG on `Fin n`; its essential graph has the directed edges `Compelled E` and the undirected
edges `UndE E`.
-/
namespace CL
open GG Spec Relation
variable {n : Nat} {E : Fin n → Fin n → Prop}

/-- An undirected edge of the essential graph of `E`. -/
def UndE (E : Fin n → Fin n → Prop) (a b : Fin n) : Prop := Adj E a b ∧ ¬ Compelled E a b ∧ ¬ Compelled E b a

/-- The graph object with exactly the directed edges `E`. -/
noncomputable def toGG (E : Fin n → Fin n → Prop) : GG n :=
  open Classical in ⟨fun a b => if E a b then .tail else if E b a then .arrow else .null, fun _ _ => false⟩

theorem toGG_arrow (hE : Acyclic E) : (toGG E).Arrow = E := by
  funext a b
  apply propext
  have := hE.asymm (a := a) (b := b)
  unfold GG.Arrow toGG
  by_cases h1 : E a b <;> by_cases h2 : E b a <;> simp_all

theorem toGG_isDag (hE : Acyclic E) : (toGG E).IsDag := by
  refine ⟨fun a b h => ?_, by rw [toGG_arrow hE]; exact hE⟩
  rw [toGG_arrow hE]
  unfold toGG at h
  by_cases h1 : E a b <;> by_cases h2 : E b a <;> simp_all

theorem exists_labelling (hE : Acyclic E) :
    ∃ order : List (Fin n), order.Nodup ∧ (∀ v, v ∈ order) ∧ Labelling E (Compelled E) order.idxOf := by
  obtain ⟨order, s, -, hn, hall, L⟩ := cpdag_labelling (toGG_isDag hE)
  rw [toGG_arrow hE] at L
  have hc : isComp s = Compelled E := by
    funext a b
    exact propext (L.iff (l := order.reverse) (List.nodup_reverse.2 hn) (fun a => List.mem_reverse.2 (hall a))
      (by rw [List.pairwise_reverse]; exact pairwise_idx hn) a b)
  rw [hc] at L
  exact ⟨order, hn, hall, L⟩

theorem undE_iff (hE : Acyclic E) (a b : Fin n) : UndE E a b ↔ Spec.Und E (Compelled E) a b := by
  have c1 : Compelled E a b → E a b := fun h => h.1
  have c2 : Compelled E b a → E b a := fun h => h.1
  have as : E a b → ¬ E b a := hE.asymm
  unfold UndE Spec.Und Rev Adj
  tauto

theorem UndE.symm {a b : Fin n} (h : UndE E a b) : UndE E b a := ⟨h.1.symm, h.2.2, h.2.1⟩

theorem UndE.ne (hE : Acyclic E) {a b : Fin n} (h : UndE E a b) : a ≠ b := by
  rintro rfl
  rcases h.1 with h | h <;> exact hE.irrefl _ h

/-- Nodes joined by an undirected edge have the same compelled parents. -/
theorem compelled_parents (hE : Acyclic E) {a b : Fin n} (h : UndE E a b) (w : Fin n) : Compelled E w a ↔ Compelled E w b := by
  obtain ⟨order, -, -, L⟩ := exists_labelling hE
  exact L.und_parents ((undE_iff hE a b).1 h) w

theorem adj_cases (a b : Fin n) (h : Adj E a b) : Compelled E a b ∨ Compelled E b a ∨ UndE E a b := by
  by_cases h1 : Compelled E a b
  · exact Or.inl h1
  · by_cases h2 : Compelled E b a
    · exact Or.inr (Or.inl h2)
    · exact Or.inr (Or.inr ⟨h, h1, h2⟩)

/-- adjacent nodes with a common undirected neighbour are joined by an undirected edge -/
theorem undE_of_adj (hE : Acyclic E) {a b y : Fin n} (ha : UndE E a y) (hb : UndE E b y) (h : Adj E a b) : UndE E a b := by
  rcases adj_cases a b h with h1 | h1 | h1
  · exact absurd ((compelled_parents hE hb a).1 h1) ha.2.1
  · exact absurd ((compelled_parents hE ha b).1 h1) hb.2.1
  · exact h1

/-- the undirected edges, reoriented along an order that starts with a given clique (listed last in `l0 ++ K`) -/
theorem clique_extension (hE : Acyclic E) {K : List (Fin n)} (hK : K.Nodup)
    (hc : ∀ a ∈ K, ∀ b ∈ K, a ≠ b → UndE E a b) :
    ∃ (l0 : List (Fin n)) (F : Fin n → Fin n → Prop), (l0 ++ K).Nodup ∧ (∀ v, v ∈ l0 ++ K) ∧ Acyclic F ∧ MarkovEquiv E F ∧
      ∀ a b, F a b ↔ Compelled E a b ∨ (UndE E a b ∧ (l0 ++ K).idxOf b < (l0 ++ K).idxOf a) := by
  obtain ⟨order, hn, hall, L⟩ := exists_labelling hE
  have hn' : order.reverse.Nodup := List.nodup_reverse.2 hn
  have hall' : ∀ a, a ∈ order.reverse := fun a => List.mem_reverse.2 (hall a)
  have hperf := L.perf order.reverse (by rw [List.pairwise_reverse]; exact pairwise_idx hn)
  obtain ⟨l0, hperm, hp⟩ := perf_start (fun _ _ h => Spec.Und.symm h) _ hn' hperf K hK (fun a _ => hall' a)
    (fun a ha b hb hab => (undE_iff hE a b).1 (hc a ha b hb hab))
  have hmem : ∀ v, v ∈ l0 ++ K := fun v => hperm.mem_iff.2 (hall' v)
  refine ⟨l0, reorient E (Compelled E) (l0 ++ K), hperm.nodup_iff.2 hn', hmem, L.reorient_acyclic _, L.reorient_equiv hmem hp,
    fun a b => ?_⟩
  unfold reorient
  rw [undE_iff hE]

/-- A member of the class in which the undirected neighbours of `y` that point to it are exactly `K`, and every other node comes
after the nodes of `K` and `y`. -/
theorem parents_extension (hE : Acyclic E) {y : Fin n} {K : Finset (Fin n)} (hy : ∀ a ∈ K, UndE E a y)
    (hc : ∀ a ∈ K, ∀ b ∈ K, a ≠ b → Adj E a b) :
    ∃ F, Acyclic F ∧ MarkovEquiv E F ∧ (∀ w, F w y ↔ Compelled E w y ∨ w ∈ K) ∧
      ∀ k h, k ∈ K → h ∉ K → h ≠ y → UndE E k h → F k h := by
  have hyK : y ∉ K := fun h => (hy y h).ne hE rfl
  obtain ⟨l0, F, hn, hall, hF, heq, hs⟩ := clique_extension hE (K := y :: K.toList)
    (by simp [hyK, K.nodup_toList]) (by
      intro a ha b hb hab
      simp only [List.mem_cons, Finset.mem_toList] at ha hb
      rcases ha with rfl | ha <;> rcases hb with rfl | hb
      · exact absurd rfl hab
      · exact (hy b hb).symm
      · exact hy a ha
      · exact undE_of_adj hE (hy a ha) (hy b hb) (hc a ha b hb hab))
  have hn2 := hn
  rw [List.nodup_append] at hn2
  have hy0 : y ∉ l0 := fun h => hn2.2.2 y h y (by simp) rfl
  have hK0 : ∀ k ∈ K, k ∉ l0 := fun k hk h => hn2.2.2 k h k (by simp [hk]) rfl
  have iy : (l0 ++ y :: K.toList).idxOf y = l0.length := by
    rw [List.idxOf_append_of_notMem hy0, List.idxOf_cons_self, Nat.add_zero]
  have iK : ∀ k ∈ K, l0.length < (l0 ++ y :: K.toList).idxOf k := by
    intro k hk
    rw [List.idxOf_append_of_notMem (hK0 k hk), List.idxOf_cons_ne _ (by rintro rfl; exact hyK hk)]
    omega
  have i0 : ∀ k, k ∉ K → k ≠ y → (l0 ++ y :: K.toList).idxOf k < l0.length := by
    intro k hk hky
    have : k ∈ l0 := by
      have := hall k
      simp only [List.mem_append, List.mem_cons, Finset.mem_toList, hk, hky, or_false] at this
      exact this
    rw [List.idxOf_append_of_mem this]
    exact List.idxOf_lt_length_iff.2 this
  refine ⟨F, hF, heq, fun w => ?_, fun k h hk hh hhy hu => ?_⟩
  · rw [hs, iy]
    constructor
    · rintro (h | ⟨h, h1⟩)
      · exact Or.inl h
      · right
        by_contra hw
        have := i0 w hw (h.ne hE)
        omega
    · rintro (h | h)
      · exact Or.inl h
      · exact Or.inr ⟨hy w h, iK w h⟩
  · rw [hs]
    right
    refine ⟨hu, ?_⟩
    have := iK k hk
    have := i0 h hh hhy
    omega

/-- one edge of a semi-directed path -/
def Semi (E : Fin n → Fin n → Prop) (a b : Fin n) : Prop := Compelled E a b ∨ UndE E a b

theorem semi_of_equiv (hE : Acyclic E) {F : Fin n → Fin n → Prop} (hF : Acyclic F) (h : MarkovEquiv E F) {a b : Fin n}
    (hab : F a b) : Semi E a b := by
  rcases adj_cases a b ((h.1 a b).2 (Or.inl hab)) with h1 | h1 | h1
  · exact Or.inl h1
  · exact absurd (h1.2 F hF h) (hF.asymm hab)
  · exact Or.inr h1

/-- adding `x → y` to the relation -/
def addArc (F : Fin n → Fin n → Prop) (x y : Fin n) (a b : Fin n) : Prop := F a b ∨ (a = x ∧ b = y)

/-- removing `x → y` from the relation -/
def delArc (F : Fin n → Fin n → Prop) (x y : Fin n) (a b : Fin n) : Prop := F a b ∧ ¬ (a = x ∧ b = y)

theorem addArc_path {F : Fin n → Fin n → Prop} {x y a b : Fin n} (h : TransGen (addArc F x y) a b) :
    TransGen F a b ∨ (ReflTransGen F a x ∧ ReflTransGen F y b) := by
  induction h with
  | single h =>
    rcases h with h | ⟨rfl, rfl⟩
    · exact Or.inl (.single h)
    · exact Or.inr ⟨.refl, .refl⟩
  | tail _ h ih =>
    rcases ih with ih | ⟨i1, i2⟩
    · rcases h with h | ⟨rfl, rfl⟩
      · exact Or.inl (ih.tail h)
      · exact Or.inr ⟨ih.to_reflTransGen, .refl⟩
    · rcases h with h | ⟨rfl, rfl⟩
      · exact Or.inr ⟨i1, i2.tail h⟩
      · exact Or.inr ⟨i1, .refl⟩

theorem addArc_acyclic {F : Fin n → Fin n → Prop} (hF : Acyclic F) {x y : Fin n} :
    Acyclic (addArc F x y) ↔ ¬ ReflTransGen F y x := by
  constructor
  · intro h hr
    refine h x ?_
    refine TransGen.head' (b := y) (Or.inr ⟨rfl, rfl⟩) ?_
    exact ReflTransGen.mono (fun a b h => Or.inl h) y x hr
  · intro h v hv
    rcases addArc_path hv with h1 | ⟨h1, h2⟩
    · exact hF v h1
    · exact h (h2.trans h1)

theorem delArc_acyclic {F : Fin n → Fin n → Prop} (hF : Acyclic F) {x y : Fin n} : Acyclic (delArc F x y) :=
  fun v hv => hF v (TransGen.mono (fun _ _ h => h.1) v v hv)

/-- Insert, sufficiency (Chickering 2002, Theorem 15). -/
theorem insert_member (hE : Acyclic E) {x y : Fin n} {K : Finset (Fin n)} (hy : ∀ a ∈ K, UndE E a y)
    (hc : ∀ a ∈ K, ∀ b ∈ K, a ≠ b → Adj E a b)
    (hp : ¬ ReflTransGen (fun a b => Semi E a b ∧ b ∉ K) y x) :
    ∃ F, Acyclic F ∧ MarkovEquiv E F ∧ (∀ w, F w y ↔ Compelled E w y ∨ w ∈ K) ∧ Acyclic (addArc F x y) := by
  obtain ⟨F, hF, heq, hpar, -⟩ := parents_extension hE hy hc
  refine ⟨F, hF, heq, hpar, (addArc_acyclic hF).2 fun hr => hp ?_⟩
  have : ∀ b, ReflTransGen F y b → ReflTransGen (fun a b => Semi E a b ∧ b ∉ K) y b := by
    intro b hb
    induction hb with
    | refl => exact .refl
    | @tail c d h1 h2 ih =>
      refine ih.tail ⟨semi_of_equiv hE hF heq h2, fun hd => ?_⟩
      have h3 : F d y := (hpar d).2 (Or.inr hd)
      exact hF y ((TransGen.tail' h1 h2).tail h3)
  exact this x hr

/-- Insert, necessity: what holds of the parents of `y` in any member to which `x → y` can be added. -/
theorem insert_necessary (hE : Acyclic E) {D : Fin n → Fin n → Prop} (hD : Acyclic D) (heq : MarkovEquiv E D) {x y : Fin n}
    (hxy : x ≠ y) (hna : ¬ Adj E x y) (hadd : Acyclic (addArc D x y)) {K : Finset (Fin n)}
    (hK : ∀ w, w ∈ K ↔ UndE E w y ∧ D w y) :
    (∀ w, UndE E w y → Adj E w x → w ∈ K) ∧ (∀ a ∈ K, ∀ b ∈ K, a ≠ b → Adj E a b) ∧
      ¬ ReflTransGen (fun a b => Semi E a b ∧ b ∉ K) y x := by
  have hnp := (addArc_acyclic hD).1 hadd
  have coll : ∀ {a b c}, D a b → D c b → UndE E a b → a ≠ c → Adj E a c := by
    intro a b c h1 h2 hu hne
    by_contra hadj
    have hv : UnshieldedCollider D a b c := ⟨hne, fun h => hadj ((heq.1 a c).2 h), h1, h2⟩
    have hvE := (heq.2 a b c).2 hv
    exact hu.2.1 ⟨hvE.2.2.1, fun F _ he => ((he.2 a b c).1 hvE).2.2.1⟩
  refine ⟨fun w hw hwx => (hK w).2 ⟨hw, ?_⟩, fun a ha b hb hab => ?_, ?_⟩
  · -- otherwise y → w; then x → w (else a cycle), a v-structure
    rcases (heq.1 w y).1 hw.1 with h | h
    · exact h
    · exfalso
      rcases (heq.1 w x).1 hwx with h1 | h1
      · exact hnp ((ReflTransGen.single h).tail h1)
      · exact hna (coll h h1 hw.symm (Ne.symm hxy)).symm
  · exact coll ((hK a).1 ha).2 ((hK b).1 hb).2 ((hK a).1 ha).1 hab
  · -- a shortest semi-directed path avoiding `K` is directed in `D`
    intro hr
    -- every node reached by the path is reached by a directed path avoiding nothing
    have main : ∀ b, ReflTransGen (fun a b => Semi E a b ∧ b ∉ K) y b → ReflTransGen D y b := by
      intro b hb
      induction hb with
      | refl => exact .refl
      | @tail c d h1 h2 ih =>
        obtain ⟨hs, hdK⟩ := h2
        rcases hs with hs | hs
        · exact ih.tail (hs.2 D hD heq)
        · rcases (heq.1 c d).1 hs.1 with h3 | h3
          · exact ih.tail h3
          · -- d → c in D: walk back along the directed path from y to c
            clear h1 hr
            induction ih with
            | refl => exact absurd ((hK d).2 ⟨hs.symm, h3⟩) hdK
            | @tail b c h4 h5 ih2 =>
              by_cases hbd : b = d
              · subst hbd; exact h4
              · have hadj : Adj E d b := coll h3 h5 hs.symm (Ne.symm hbd)
                rcases (heq.1 d b).1 hadj with h6 | h6
                · -- d → b
                  rcases adj_cases d b hadj with h7 | h7 | h7
                  · -- compelled d → b and b → c
                    rcases adj_cases b c ((heq.1 b c).2 (Or.inl h5)) with h8 | h8 | h8
                    · -- b → c compelled and c – d: b → d compelled
                      exact absurd (((compelled_parents hE hs b).1 h8).2 D hD heq) (hD.asymm h6)
                    · exact absurd (h8.2 D hD heq) (hD.asymm h5)
                    · -- b – c, d → b compelled ⇒ d → c compelled
                      exact absurd ((compelled_parents hE h8 d).1 h7) hs.2.2
                  · exact absurd (h7.2 D hD heq) (hD.asymm h6)
                  · exact ih2 h7.symm h6
                · exact h4.tail h6
    exact hnp (main x hr)

/-- Delete: in a member with `x → y`, the other undirected parents of `y` are adjacent to `x`. -/
theorem delete_necessary (hE : Acyclic E) {D : Fin n → Fin n → Prop} (hD : Acyclic D) (heq : MarkovEquiv E D) {x y : Fin n}
    (hxy : D x y) {w : Fin n} (hw : UndE E w y) (hwy : D w y) (hwx : w ≠ x) : Adj E w x := by
  by_contra hadj
  have hv : UnshieldedCollider D w y x := ⟨hwx, fun h => hadj ((heq.1 w x).2 h), hwy, hxy⟩
  have hvE := (heq.2 w y x).2 hv
  exact hw.2.1 ⟨hvE.2.2.1, fun F _ he => ((he.2 w y x).1 hvE).2.2.1⟩

/-- Delete, sufficiency (Chickering 2002, Theorem 17): `N` are the undirected neighbours of `y` adjacent to `x`, without `H`. -/
theorem delete_member (hE : Acyclic E) {x y : Fin n} (hxy : Semi E x y) {N : Finset (Fin n)}
    (hy : ∀ a ∈ N, UndE E a y ∧ Adj E a x) (hc : ∀ a ∈ N, ∀ b ∈ N, a ≠ b → Adj E a b) :
    ∃ F, Acyclic F ∧ MarkovEquiv E F ∧ (∀ w, F w y ↔ Compelled E w y ∨ w = x ∨ w ∈ N) ∧
      ∀ h, UndE E h y → h ≠ x → h ∉ N → Adj E h x → F y h ∧ F x h := by
  classical
  rcases hxy with hxy | hxy
  · obtain ⟨F, hF, heq, hpar, hout⟩ := parents_extension hE (fun a ha => (hy a ha).1) hc
    refine ⟨F, hF, heq, fun w => ?_, fun h hh hhx hN hadj => ⟨?_, ?_⟩⟩
    · rw [hpar]
      constructor
      · rintro (h | h)
        · exact Or.inl h
        · exact Or.inr (Or.inr h)
      · rintro (h | rfl | h)
        · exact Or.inl h
        · exact Or.inl hxy
        · exact Or.inr h
    · rcases (heq.1 h y).1 hh.1 with h1 | h1
      · rcases (hpar h).1 h1 with h2 | h2
        · exact absurd h2 hh.2.1
        · exact absurd h2 hN
      · exact h1
    · exact ((compelled_parents hE hh x).2 hxy).2 F hF heq
  · have hK : ∀ a ∈ insert x N, UndE E a y := by
      intro a ha
      rcases Finset.mem_insert.1 ha with rfl | ha
      · exact hxy
      · exact (hy a ha).1
    obtain ⟨F, hF, heq, hpar, hout⟩ := parents_extension hE hK (by
      intro a ha b hb hab
      rcases Finset.mem_insert.1 ha with e1 | ha' <;> rcases Finset.mem_insert.1 hb with e2 | hb'
      · exact absurd (e1.trans e2.symm) hab
      · subst e1; exact (hy b hb').2.symm
      · subst e2; exact (hy a ha').2
      · exact hc a ha' b hb' hab)
    refine ⟨F, hF, heq, fun w => by rw [hpar, Finset.mem_insert], fun h hh hhx hN hadj => ⟨?_, ?_⟩⟩
    · rcases (heq.1 h y).1 hh.1 with h1 | h1
      · rcases (hpar h).1 h1 with h2 | h2
        · exact absurd h2 hh.2.1
        · rcases Finset.mem_insert.1 h2 with h3 | h3
          · exact absurd h3 hhx
          · exact absurd h3 hN
      · exact h1
    · exact hout x h (Finset.mem_insert_self _ _) (by simp [hhx, hN]) (hh.ne hE) (undE_of_adj hE hxy hh hadj.symm)

end CL
