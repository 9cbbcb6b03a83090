import Verif.Spec.DSep
import Verif.Proofs.VermaPearl
import Verif.Props.Pdag2Dag
import Verif.Props.PCComplete
import Verif.Props.GesMain

/-!
# C78: the library's equivalence of DAGs is equality of d-separations
-/
namespace CL
open Spec GG
variable {n : Nat}

/-- **C78.** `mec_check` returns `True` for two DAGs exactly when every d-separation statement true of one is true of the other. -/
theorem C78_mec_check_dsep {G K : GG n} (hG : G.IsDag) (hK : K.IsDag) {fuel : Nat} (hf : n * n + n < fuel) :
    ∃ r, mecCheck G K fuel = .ok r ∧ (r = true ↔ SameDSep G.Arrow K.Arrow) := by
  obtain ⟨r, h1, h2⟩ := C26_mec_check_exact hG hK hf
  exact ⟨r, h1, h2.trans (markovEquiv_iff_sameDSep hG.acyclic hK.acyclic)⟩

/-- **C78.** `pdag2dag(dag2cpdag(G))` returns a DAG with the d-separations of `G`. -/
theorem C78_roundtrip_dsep {G : GG n} (h : G.IsDag) : ∃ P R, G.dag2cpdag (n * n + n + 1) = .ok P ∧ P.pdag2dag n = some R ∧ R.IsDag ∧
    SameDSep G.Arrow R.Arrow := by
  obtain ⟨P, R, h1, h2, h3, h4⟩ := C23_roundtrip h
  exact ⟨P, R, h1, h2, h3, (markovEquiv_iff_sameDSep h.acyclic h3.acyclic).1 h4⟩

/-- **C78.** In `dag2cpdag(G)` the edge between `a` and `b` is directed `a → b` exactly when every DAG with the d-separations of `G` has the
edge `a → b`. -/
theorem C78_cpdag_arrow {G : GG n} (h : G.IsDag) {H : GG n} (hr : G.dag2cpdag (n * n + n + 1) = .ok H) (a b : Fin n) :
    H.Arrow a b ↔ ∀ F : Fin n → Fin n → Prop, Acyclic F → SameDSep G.Arrow F → F a b := by
  obtain ⟨H', h1, h2⟩ := C25_essential_graph h
  have : H' = H := by have := h1 (n * n + n + 1) (by omega); rw [hr] at this; injection this with this; exact this.symm
  subst this
  rw [(h2 a b).2.1]
  constructor
  · rintro hc F hF hs
    exact hc.2 F hF ((markovEquiv_iff_sameDSep h.acyclic hF).2 hs)
  · intro hc
    exact ⟨hc _ h.acyclic fun _ _ _ _ _ _ => Iff.rfl, fun F hF he => hc F hF ((markovEquiv_iff_sameDSep h.acyclic hF).1 he)⟩

/-- **C78.** PC with a d-separation oracle of `D` directs `a → b` exactly when every DAG with the d-separations of `D` has the edge `a → b`: the
output carries all that the answers of the oracle determine. -/
theorem C78_pc_arrow {P : Type} [LinearOrder P] (D : Fin n → Fin n → Prop) (hac : Acyclic D) (T : TestFn n P) (zero : P)
    (ho : DSepOracle D T.ind) (stable : Bool) (ucRule : Nat) (hr : ucRule ≤ 2) (prio : Option Nat) :
    ∃ H, pcAlg T zero stable ucRule prio Know.none = some H ∧ ∀ a b,
      H.Arrow a b ↔ ∀ F : Fin n → Fin n → Prop, Acyclic F → SameDSep D F → F a b := by
  obtain ⟨H, h1, h2⟩ := C64_pc_essential_graph D hac T zero ho stable ucRule hr prio
  refine ⟨H, h1, fun a b => ?_⟩
  rw [(h2 a b).2.1]
  constructor
  · rintro hc F hF hs
    exact hc.2 F hF ((markovEquiv_iff_sameDSep hac hF).2 hs)
  · intro hc
    exact ⟨hc _ hac fun _ _ _ _ _ _ => Iff.rfl, fun F hF he => hc F hF ((markovEquiv_iff_sameDSep hac hF).1 he)⟩

/-- **C78.** The DAGs represented by the graph GES returns all have the same d-separations, and no other DAG has them. -/
theorem C78_ges_class {G : GG n} {D F : Fin n → Fin n → Prop} (hD : Ges.Essential G D) (hF : Acyclic F) :
    Ges.Essential G F ↔ SameDSep D F := by
  rw [← markovEquiv_iff_sameDSep hD.acyclic hF]
  exact ⟨fun h => hD.equiv h, fun h => hD.congr hF h⟩

/-! ## Concrete cases: a chain and its reversal against a collider -/

/-- `0 → 1 → 2`. -/
def exChain : GG 3 := run [.addEdge 0 1 .tail .arrow, .addEdge 1 2 .tail .arrow]
/-- `0 ← 1 ← 2`. -/
def exChain' : GG 3 := run [.addEdge 1 0 .tail .arrow, .addEdge 2 1 .tail .arrow]
/-- `0 → 1 ← 2`. -/
def exColl : GG 3 := run [.addEdge 0 1 .tail .arrow, .addEdge 2 1 .tail .arrow]

theorem isDag_of_gt {n : Nat} {G : GG n} (hd : ∀ a b, G.g a b ≠ .null → G.Arrow a b ∨ G.Arrow b a) (r : Fin n → Nat) (hlt : ∀ a b, G.Arrow a b → r a < r b) :
    G.IsDag := by
  refine ⟨hd, fun x h => ?_⟩
  have : ∀ a b, Relation.TransGen G.Arrow a b → r a < r b := by
    intro a b h
    induction h with
    | single h => exact hlt _ _ h
    | tail _ h ih => exact ih.trans (hlt _ _ h)
  exact lt_irrefl _ (this x x h)

theorem exChain_dag : exChain.IsDag := isDag_of_gt (by decide) (fun v => v.1) (by decide)
theorem exChain'_dag : exChain'.IsDag := isDag_of_gt (by decide) (fun v => 2 - v.1) (by decide)
theorem exColl_dag : exColl.IsDag := isDag_of_gt (by decide) (fun v => if v = 1 then 1 else 0) (by decide)

set_option maxRecDepth 20000 in
/-- The two chains have the same d-separations. -/
example : SameDSep exChain.Arrow exChain'.Arrow := by
  obtain ⟨r, h1, h2⟩ := C78_mec_check_dsep exChain_dag exChain'_dag (fuel := 50) (by decide)
  have : mecCheck exChain exChain' 50 = .ok true := by decide
  rw [this] at h1
  cases h1
  exact h2.1 rfl

set_option maxRecDepth 20000 in
/-- The chain and the collider do not. -/
example : ¬ SameDSep exChain.Arrow exColl.Arrow := by
  obtain ⟨r, h1, h2⟩ := C78_mec_check_dsep exChain_dag exColl_dag (fuel := 50) (by decide)
  have : mecCheck exChain exColl 50 = .ok false := by decide
  rw [this] at h1
  cases h1
  exact fun h => absurd (h2.2 h) (by decide)

end CL
