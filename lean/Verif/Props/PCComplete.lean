import Verif.Props.PC
import Verif.Proofs.Ges
import Verif.Proofs.Meek

/-!
# C64: PC with a d-separation oracle returns exactly the essential graph

C21 says that what PC returns is right; here: nothing is missing. `Compelled D a b` (`Props/Cpdag.lean`) means that every DAG with the
skeleton and the v-structures of `D` has `a → b`.
-/
namespace CL
open GG Relation Spec
variable {n : Nat} {P : Type} [LinearOrder P]

/-- the compelled edges are exactly those derivable from the v-structures by R1–R3 -/
theorem compelled_iff_meek {D : Fin n → Fin n → Prop} (hac : Acyclic D) (a b : Fin n) : Compelled D a b ↔ Meek D a b := by
  constructor
  · intro h
    obtain ⟨order, -, -, L⟩ := exists_labelling hac
    exact L.meek h
  · intro h
    exact ⟨h.sound hac ⟨fun _ _ => Iff.rfl, fun _ _ _ => Iff.rfl⟩, fun F hF he => h.sound hF he⟩

/-- a graph that shows the v-structures and is closed under R1–R3 shows everything derivable -/
theorem PCCorrect.meek {D : Fin n → Fin n → Prop} (hac : Acyclic D) {H : GG n} (h : PCCorrect D H) {a b : Fin n}
    (hm : Meek D a b) : H.Arrow a b := by
  have nul : ∀ {x y}, ¬ Adj D x y → H.g x y = .null := fun {x y} hn => by
    by_contra hc; exact hn ((h.skeleton x y).1 hc)
  have asym : ∀ {x y}, H.Arrow x y → ¬ H.Arrow y x := fun h1 h2 => hac.asymm (h.directed _ _ h1) (h.directed _ _ h2)
  have dsound : ∀ {x y}, Meek D x y → D x y := fun hm => hm.sound hac ⟨fun _ _ => Iff.rfl, fun _ _ _ => Iff.rfl⟩
  induction hm with
  | vs hv => exact (h.vstruct _ _ _ hv).1
  | @r1 x a b h1 ha hne hna hnu ih =>
    have hD : D a b := dsound (.r1 h1 ha hne hna hnu)
    rcases h.kinds a b ha with h2 | h2 | h2
    · exact h2
    · exact absurd (h.directed _ _ h2) (hac.asymm hD)
    · exact absurd ⟨h2, Or.inl ⟨x, hne, nul hna, ih⟩⟩ (h.closed a b)
  | @r2 a x b h1 h2 ha ih1 ih2 =>
    have hD : D a b := dsound (.r2 h1 h2 ha)
    rcases h.kinds a b ha with h3 | h3 | h3
    · exact h3
    · exact absurd (h.directed _ _ h3) (hac.asymm hD)
    · exact absurd ⟨h3, Or.inr (Or.inl ⟨x, ih1, ih2⟩)⟩ (h.closed a b)
  | @r3 a b d e hab had hae h1 h2 hne hna hnu ih1 ih2 =>
    have hD : D a b := dsound (.r3 hab had hae h1 h2 hne hna hnu)
    rcases h.kinds a b hab with h3 | h3 | h3
    · exact h3
    · exact absurd (h.directed _ _ h3) (hac.asymm hD)
    · exfalso
      rcases h.kinds a d had with k1 | k1 | k1
      · exact h.closed a b ⟨h3, Or.inr (Or.inl ⟨d, k1, ih1⟩)⟩
      · rcases h.kinds a e hae with k2 | k2 | k2
        · exact h.closed a b ⟨h3, Or.inr (Or.inl ⟨e, k2, ih2⟩)⟩
        · exact hnu ⟨hne, hna, h.directed _ _ k1, h.directed _ _ k2⟩
        · exact h.closed a e ⟨k2, Or.inl ⟨d, hne, nul hna, k1⟩⟩
      · rcases h.kinds a e hae with k2 | k2 | k2
        · exact h.closed a b ⟨h3, Or.inr (Or.inl ⟨e, k2, ih2⟩)⟩
        · exact h.closed a d ⟨k1, Or.inl ⟨e, hne.symm, nul fun h => hna h.symm, k2⟩⟩
        · exact h.closed a b ⟨h3, Or.inr (Or.inr ⟨d, e, hne, nul hna, k1, k2, ih1, ih2⟩)⟩

theorem PInv.transfer {D F : Fin n → Fin n → Prop} {G : GG n} (he : MarkovEquiv D F) (h : PInv D G) (hno : ∀ a b, G.g a b ≠ .arrow) :
    PInv F G := ⟨h.pd, fun a b => (h.adj a b).trans (he.1 a b), fun a b hab => absurd hab (hno _ _)⟩

theorem UCDone.transfer {D F : Fin n → Fin n → Prop} {G H : GG n} (he : MarkovEquiv D F) (hG : PInv F G) (h : UCDone D G H) :
    UCDone F G H := by
  have ha : ∀ a b, H.g b a = .arrow ↔ G.g b a = .arrow ∨ ∃ z, UnshieldedCollider F a b z := by
    intro a b
    rw [h.arrow]
    exact or_congr Iff.rfl (exists_congr fun z => he.2 a b z)
  refine ⟨⟨h.inv.pd, fun a b => (h.inv.adj a b).trans (he.1 a b), fun a b hab => ?_⟩, h.sound, ha⟩
  rcases (ha a b).1 hab with h1 | ⟨z, hz⟩
  · exact hG.arrow a b h1
  · exact hz.2.2.1

theorem DefDone.transfer {D F : Fin n → Fin n → Prop} {G : GG n} {st : DefSt n} (he : MarkovEquiv D F) (hG : PInv F G)
    (h : DefDone D G st) : DefDone F G st := by
  refine ⟨h.done.transfer he hG, fun t ht => (he.2 _ _ _).1 (h.uc t ht), fun t ht => ?_⟩
  obtain ⟨⟨h1, h2⟩, h3, h4, h5⟩ := h.nonUC t ht
  have hna : ¬ Adj F t.1 t.2.2 := fun hc => h2 ((he.1 _ _).2 hc)
  exact ⟨⟨h1, hna⟩, (he.1 _ _).1 h3, (he.1 _ _).1 h4, fun hc => h5 ((he.2 _ _ _).2 ⟨h1, hna, hc⟩).2.2⟩

/-- PC's answer is correct for every Markov-equivalent DAG for which the knowledge is true -/
theorem pc_correct_class (D : Fin n → Fin n → Prop) (hac : Acyclic D) (T : TestFn n P) (zero : P)
    (ho : DSepOracle D T.ind) (stable : Bool) (ucRule : Nat) (hr : ucRule ≤ 2) (prio : Option Nat) (k : Know n) (hk : k.TrueOf D)
    (hban : (stable = true ∧ ucRule ≠ 0) ∨ ∀ a b, ¬ (k.forb a b = true ∧ k.forb b a = true)) :
    ∃ H, pcAlg T zero stable ucRule prio k = some H ∧
      ∀ F, Acyclic F → MarkovEquiv D F → k.TrueOf F → PCCorrect F H := by
  obtain ⟨s, h1, h2, h3, hno, h5⟩ := skeleton_oracle hac ho stable k hk (hban.imp_left And.left)
  obtain ⟨h6, h7⟩ := PInv.orientByBk hk h2 h3
  have key : ∀ K : GG n, MInv D K → (∀ F, Acyclic F → MarkovEquiv D F → k.TrueOf F → MInv F K) → ∃ H, meek k K = some H ∧
      ∀ F, Acyclic F → MarkovEquiv D F → k.TrueOf F → PCCorrect F H := by
    intro K hK hKF
    obtain ⟨H, e1, -⟩ := meek_oracle hac hk hK
    refine ⟨H, e1, fun F hF he hkF => ?_⟩
    obtain ⟨H', e1', e2', -, e4'⟩ := meek_oracle hF hkF (hKF F hF he hkF)
    rw [e1] at e1'
    cases e1'
    exact e2'.correct hF e4'
  have hGF : ∀ F, Acyclic F → MarkovEquiv D F → k.TrueOf F → PInv F (orientByBk k s.1) := fun F hF he hkF =>
    (PInv.orientByBk hkF (h2.transfer he hno) h3).1
  unfold pcAlg
  rw [h1]
  simp only [Option.bind_some]
  by_cases r0 : ucRule = 0
  · rw [if_pos r0]
    have hd := ucSepset_done hac hk T (prio.getD 3) h6 h7 s.2 (by
      intro x y z a1 a2 a3 a4
      rw [h5 x y z a1 a2 a3 a4]
      have := hban.resolve_left (fun h => h.2 r0) x z
      tauto)
    exact key _ hd.minv fun F hF he hkF => (hd.transfer he (hGF F hF he hkF)).minv
  · rw [if_neg r0]
    by_cases r1 : ucRule = 1
    · rw [if_pos r1]
      have hd := maxp_done hac hk ho (prio.getD 3) h6 h7
      exact key _ hd.minv fun F hF he hkF => (hd.transfer he (hGF F hF he hkF)).minv
    · rw [if_neg r1, if_pos (by omega)]
      have hd := definiteMaxp_done hac hk ho zero (prio.getD 4) h6 h7
      obtain ⟨H, e1, e2, -⟩ := definiteMeek_oracle (k := k) hac hd
      rw [e1]
      refine key H e2 fun F hF he hkF => ?_
      obtain ⟨H', e1', e2', -⟩ := definiteMeek_oracle (k := k) hF (hd.transfer he (hGF F hF he hkF))
      rw [e1] at e1'
      cases e1'
      exact e2'

/-- **C64.** With a d-separation oracle of the DAG `D` and no background knowledge, PC returns the essential graph (CPDAG) of `D`,
for the collider rules 0, 1, 2, every priority rule and both skeleton modes: same adjacencies; `a → b` exactly when every DAG with
the skeleton and v-structures of `D` has `a → b`; all other edges undirected. -/
theorem C64_pc_essential_graph (D : Fin n → Fin n → Prop) (hac : Acyclic D) (T : TestFn n P) (zero : P)
    (ho : DSepOracle D T.ind) (stable : Bool) (ucRule : Nat) (hr : ucRule ≤ 2) (prio : Option Nat) :
    ∃ H, pcAlg T zero stable ucRule prio Know.none = some H ∧ ∀ a b, (H.g a b = .null ↔ ¬ Adj D a b) ∧
      (H.Arrow a b ↔ Compelled D a b) ∧
      ((H.g a b = .tail ∧ H.g b a = .tail) ↔ Adj D a b ∧ ¬ Compelled D a b ∧ ¬ Compelled D b a) := by
  have hk : ∀ F : Fin n → Fin n → Prop, (Know.none : Know n).TrueOf F := fun F => ⟨by simp [Know.none], by simp [Know.none]⟩
  obtain ⟨H, e, hc⟩ := pc_correct_class D hac T zero ho stable ucRule hr prio Know.none (hk D) (Or.inr (by simp [Know.none]))
  have hD := hc D hac ⟨fun _ _ => Iff.rfl, fun _ _ _ => Iff.rfl⟩ (hk D)
  have harr : ∀ a b, H.Arrow a b ↔ Compelled D a b := by
    intro a b
    constructor
    · exact fun h => ⟨hD.directed a b h, fun F hF he => (hc F hF he (hk F)).directed a b h⟩
    · exact fun h => hD.meek hac ((compelled_iff_meek hac a b).1 h)
  refine ⟨H, e, fun a b => ⟨?_, harr a b, ?_⟩⟩
  · rw [← hD.skeleton]; simp
  · rw [← harr, ← harr]
    constructor
    · rintro ⟨h1, h2⟩
      refine ⟨(hD.skeleton a b).1 (by simp [h1]), fun h => ?_, fun h => ?_⟩
      · rw [h.2] at h2; simp at h2
      · rw [h.2] at h1; simp at h1
    · rintro ⟨h1, h2, h3⟩
      exact ((hD.kinds a b h1).resolve_left h2).resolve_left h3

/-- **C64 with background knowledge.** With knowledge that is true of `D`, PC still directs every edge that the equivalence class
alone compels, and directs an edge only if all DAGs of the class for which the knowledge is true agree on it. -/
theorem C64_with_knowledge (D : Fin n → Fin n → Prop) (hac : Acyclic D) (T : TestFn n P) (zero : P)
    (ho : DSepOracle D T.ind) (stable : Bool) (ucRule : Nat) (hr : ucRule ≤ 2) (prio : Option Nat) (k : Know n)
    (hk : (∀ a b, k.forb a b = true → ¬ D a b) ∧ ∀ a b, k.req a b = true → D a b)
    (hban : (stable = true ∧ ucRule ≠ 0) ∨ ∀ a b, ¬ (k.forb a b = true ∧ k.forb b a = true)) :
    ∃ H, pcAlg T zero stable ucRule prio k = some H ∧ (∀ a b, H.g a b = .null ↔ ¬ Adj D a b) ∧
      (∀ a b, Compelled D a b → H.Arrow a b) ∧
      (∀ a b, H.Arrow a b → ∀ F, Acyclic F → MarkovEquiv D F → (∀ a b, k.forb a b = true → ¬ F a b) →
        (∀ a b, k.req a b = true → F a b) → F a b) := by
  obtain ⟨H, e, hc⟩ := pc_correct_class D hac T zero ho stable ucRule hr prio k ⟨hk.1, hk.2⟩ hban
  have hD := hc D hac ⟨fun _ _ => Iff.rfl, fun _ _ _ => Iff.rfl⟩ ⟨hk.1, hk.2⟩
  refine ⟨H, e, fun a b => by rw [← hD.skeleton]; simp, fun a b h => hD.meek hac ((compelled_iff_meek hac a b).1 h), ?_⟩
  exact fun a b h F hF he h1 h2 => (hc F hF he ⟨h1, h2⟩).directed a b h

/-- The hypotheses of `C64_pc_essential_graph` are met by the chain `0 → 1 → 2`; nothing is compelled there, so PC returns
`0 - 1 - 2`. -/
example (stable : Bool) (ucRule : Nat) (hr : ucRule ≤ 2) (prio : Option Nat) :
    ∃ H, pcAlg chainT 0 stable ucRule prio Know.none = some H ∧ ∀ a b, (H.Arrow a b ↔ Compelled chainD a b) := by
  obtain ⟨H, h1, h2⟩ := C64_pc_essential_graph chainD chainD_acyclic chainT 0 chainT_oracle stable ucRule hr prio
  exact ⟨H, h1, fun a b => (h2 a b).2.1⟩

/-! ## C65: the fourth Meek rule is missing -/

/-- the DAG `0 → 1, 0 → 2, 0 → 3, 3 → 2, 2 → 1` -/
def kiteD (a b : Fin 4) : Prop := (a, b) ∈ [((0 : Fin 4), (1 : Fin 4)), (0, 2), (0, 3), (3, 2), (2, 1)]

instance : DecidableRel kiteD := fun a b => by unfold kiteD; infer_instance

theorem kiteD_acyclic : Acyclic kiteD := by
  intro x h
  have one : ∀ a b : Fin 4, kiteD a b → ([0, 3, 2, 1] : List (Fin 4))[a.val]! < ([0, 3, 2, 1] : List (Fin 4))[b.val]! := by decide
  have : ∀ a b, TransGen kiteD a b → ([0, 3, 2, 1] : List (Fin 4))[a.val]! < ([0, 3, 2, 1] : List (Fin 4))[b.val]! := by
    intro a b hab
    induction hab with
    | single h => exact one _ _ h
    | tail _ h ih => exact lt_trans ih (one _ _ h)
  exact absurd (this x x h) (lt_irrefl _)

/-- `1` and `3` are independent given sets containing `0` and `2` -/
def kiteCI (x y : Fin 4) (S : List (Fin 4)) : Bool :=
  ((x == 1 && y == 3) || (x == 3 && y == 1)) && S.contains 0 && S.contains 2

def kiteT : TestFn 4 Nat := ⟨fun x y S => if kiteCI x y S then 1 else 0, 0⟩

theorem kiteT_oracle : DSepOracle kiteD kiteT.ind := by
  have hind : ∀ x y S, kiteT.ind x y S = kiteCI x y S := by
    intro x y S
    simp only [TestFn.ind, kiteT]
    by_cases h : kiteCI x y S = true <;> simp [h]
  have hadj : ∀ x y : Fin 4, x ≠ y → ¬ (x = 1 ∧ y = 3) → ¬ (x = 3 ∧ y = 1) → Adj kiteD x y := by
    unfold Adj; decide
  have key : ∀ S : List (Fin 4), (1 : Fin 4) ∉ S → (3 : Fin 4) ∉ S →
      ((0 : Fin 4) ∈ S ∧ (2 : Fin 4) ∈ S ↔ DSep kiteD {z | z ∈ S} 1 3) := by
    intro S h1 h3
    constructor
    · rintro ⟨h0, h2⟩
      have hset : {z | z ∈ S} = {p | kiteD p 1} := by
        ext z
        have : z = 0 ∨ z = 1 ∨ z = 2 ∨ z = 3 := by revert z; decide
        rcases this with rfl | rfl | rfl | rfl <;> simp [kiteD, h0, h1, h2, h3]
      rw [hset]
      refine local_markov kiteD_acyclic (by decide) (by unfold Adj; decide) ?_
      intro h
      rcases TransGen.head'_iff.1 h with ⟨c, hc, -⟩
      revert c; decide
    · intro h
      exact ⟨noncollider_mem (Z := {z | z ∈ S}) (x := 1) (z := 0) (y := 3) (by decide) (by decide) (by decide)
          (by unfold Adj; decide) (by unfold Adj; decide) (by unfold Collider; decide) h,
        noncollider_mem (Z := {z | z ∈ S}) (x := 1) (z := 2) (y := 3) (by decide) (by decide) (by decide)
          (by unfold Adj; decide) (by unfold Adj; decide) (by unfold Collider; decide) h⟩
  intro x y S hne _ hx hy
  rw [hind]
  by_cases h1 : x = 1 ∧ y = 3
  · obtain ⟨rfl, rfl⟩ := h1
    rw [← key S hx hy]; simp [kiteCI]
  · by_cases h2 : x = 3 ∧ y = 1
    · obtain ⟨rfl, rfl⟩ := h2
      rw [dSep_symm, ← key S hy hx]; simp [kiteCI]
    · constructor
      · intro h
        exfalso
        unfold kiteCI at h
        simp only [Bool.and_eq_true, Bool.or_eq_true, beq_iff_eq] at h
        tauto
      · intro h
        exact absurd (dConn_of_adj hne (hadj x y hne h1 h2)) h

/-- the (true) knowledge that `3 → 2` -/
def kiteK : Know 4 := ⟨fun _ _ => false, fun a b => a == 3 && b == 2⟩

set_option maxRecDepth 100000 in
/-- **C65 is violated.** With background knowledge the result need not be maximally oriented, because Meek's fourth rule is not
implemented: for `kiteD` and the knowledge `3 → 2`, every DAG of the class that has `3 → 2` has `0 → 1`, but PC leaves `0 - 1`
undirected. -/
theorem C65_rule4_missing_violated : ∃ (D : Fin 4 → Fin 4 → Prop) (T : TestFn 4 Nat) (k : Know 4) (H : GG 4), Acyclic D ∧
    DSepOracle D T.ind ∧ (∀ a b, k.forb a b = true → ¬ D a b) ∧ (∀ a b, k.req a b = true → D a b) ∧
    pcAlg T 0 true 0 (some 2) k = some H ∧ H.g 0 1 = .tail ∧ H.g 1 0 = .tail ∧
    ∀ F, Acyclic F → MarkovEquiv D F → (∀ a b, k.req a b = true → F a b) → F 0 1 := by
  have h : (pcAlg kiteT 0 true 0 (some 2) kiteK).any (fun H => decide (H.g 0 1 = .tail ∧ H.g 1 0 = .tail)) = true := by
    decide +kernel
  cases hH : pcAlg kiteT 0 true 0 (some 2) kiteK with
  | none => rw [hH] at h; simp at h
  | some H =>
    rw [hH] at h
    simp only [Option.any_some, decide_eq_true_eq] at h
    refine ⟨kiteD, kiteT, kiteK, H, kiteD_acyclic, kiteT_oracle, by simp [kiteK], by decide, hH, h.1, h.2, ?_⟩
    intro F hF he hreq
    have h32 : F 3 2 := hreq 3 2 (by decide)
    have adj : ∀ a b : Fin 4, Adj kiteD a b → F a b ∨ F b a := fun a b h => (he.1 a b).1 h
    have nav : ∀ y : Fin 4, ¬ UnshieldedCollider kiteD 3 y 1 := by
      intro y hv
      have key : ∀ y : Fin 4, ¬ (kiteD 3 y ∧ kiteD 1 y) := by decide
      exact key y hv.2.2
    have hna : ¬ Adj F 3 1 := fun hc => absurd ((he.1 3 1).2 hc) (by unfold Adj; decide)
    have h21 : F 2 1 := by
      rcases adj 2 1 (by unfold Adj; decide) with h | h
      · exact h
      · exact absurd ((he.2 3 2 1).2 ⟨by decide, hna, h32, h⟩) (nav 2)
    rcases adj 0 1 (by unfold Adj; decide) with h | h10
    · exact h
    · exfalso
      rcases adj 0 3 (by unfold Adj; decide) with h03 | h30
      · exact hF 0 ((((TransGen.single h03).tail h32).tail h21).tail h10)
      · exact nav 0 ((he.2 3 0 1).2 ⟨by decide, hna, h30, h10⟩)

end CL
