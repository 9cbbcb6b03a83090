import Verif.Props.TierKnowledge
import Verif.Props.SameDSep

/-!
# C218: CD-NOD directs everything that the class and the exogenous context force
-/
namespace CL
open GG Relation Spec
variable {n : Nat} {P : Type} [LinearOrder P]

/-- The edge `a → b` is in every DAG of the equivalence class of `D` in which `c` has no cause. -/
def ForcedRoot (D : Fin n → Fin n → Prop) (c : Fin n) (a b : Fin n) : Prop :=
  ∀ F : Fin n → Fin n → Prop, Acyclic F → MarkovEquiv D F → (∀ x, ¬ F x c) → F a b

theorem DSepOracle.transfer {D F : Fin n → Fin n → Prop} (hD : Acyclic D) (hF : Acyclic F) (he : MarkovEquiv D F) {ind : CI n}
    (ho : DSepOracle D ind) : DSepOracle F ind := fun x y S hxy hn hx hy =>
  (ho x y S hxy hn hx hy).trans ((markovEquiv_iff_sameDSep hD hF).1 he _ x y hxy hx hy)

/-- **C218.** The test answers the d-separations of the DAG `D` over the variables and the context (the last node), and the context has no cause.
For the collider rules 0, 1, 2, every priority and both skeleton modes CD-NOD returns the graph with the adjacencies of `D` in which an edge is
directed `a → b` exactly when every DAG equivalent to `D` in which the context has no cause has `a → b`, and undirected when these DAGs disagree. -/
theorem C218_cdnod_complete (D : Fin (n + 1) → Fin (n + 1) → Prop) (hac : Acyclic D) (hroot : ∀ a, ¬ D a (Fin.last n)) (T : TestFn (n + 1) P)
    (zero : P) (ho : DSepOracle D T.ind) (stable : Bool) (ucRule : Nat) (hr : ucRule ≤ 2) (prio : Option Nat) :
    ∃ H, cdnodAlg T zero stable ucRule prio Know.none = some H ∧ ∀ a b, (H.g a b = .null ↔ ¬ Adj D a b) ∧
      (H.Arrow a b ↔ ForcedRoot D (Fin.last n) a b) ∧
      ((H.g a b = .tail ∧ H.g b a = .tail) ↔ Adj D a b ∧ ¬ ForcedRoot D (Fin.last n) a b ∧ ¬ ForcedRoot D (Fin.last n) b a) := by
  have hk : ∀ F : Fin (n + 1) → Fin (n + 1) → Prop, (∀ a b, (Know.none : Know (n + 1)).forb a b = true → ¬ F a b) ∧
      ∀ a b, (Know.none : Know (n + 1)).req a b = true → F a b := fun F => ⟨by simp [Know.none], by simp [Know.none]⟩
  obtain ⟨H, e, hDH, hout⟩ := C52_cdnod_correct D hac hroot T zero ho stable ucRule hr prio Know.none (hk D)
  let tier : Fin (n + 1) → Nat := fun v => if v = Fin.last n then 0 else 1
  have hob : ∀ F : Fin (n + 1) → Fin (n + 1) → Prop, Acyclic F → (Obeys tier F ↔ ∀ x, ¬ F x (Fin.last n)) := by
    intro F hF
    constructor
    · intro h x hx
      have hne : x ≠ Fin.last n := fun hc => hF _ (.single (hc ▸ hx))
      have := h _ _ hx
      simp only [tier, if_neg hne, if_pos] at this
      omega
    · intro h a b hab
      have hne : b ≠ Fin.last n := fun hc => h a (hc ▸ hab)
      simp only [tier, if_neg hne]
      split <;> omega
  have hund : ∀ a b, H.g a b = .tail → H.g b a = .tail → tier a = tier b := by
    intro a b h1 h2
    by_cases ha : a = Fin.last n
    · subst ha
      have := (hout b (by rw [h1]; simp)).2
      rw [this] at h2; simp at h2
    · by_cases hb : b = Fin.last n
      · subst hb
        have := (hout a (by rw [h2]; simp)).2
        rw [this] at h1; simp at h1
      · simp only [tier, if_neg ha, if_neg hb]
  have harr : ∀ a b, H.Arrow a b ↔ ForcedRoot D (Fin.last n) a b := by
    intro a b
    constructor
    · intro h F hF he hx
      obtain ⟨H', e', hFH, -⟩ := C52_cdnod_correct F hF hx T zero (ho.transfer hac hF he) stable ucRule hr prio Know.none (hk F)
      obtain rfl : H = H' := Option.some.inj (e.symm.trans e')
      exact hFH.directed a b h
    · intro h
      refine hDH.tiers hac ((hob D hac).2 hroot) hund (h D hac ⟨fun _ _ => Iff.rfl, fun _ _ _ => Iff.rfl⟩ hroot) fun F hF he ht => ?_
      exact h F hF he ((hob F hF).1 ht)
  refine ⟨H, e, fun a b => ⟨?_, harr a b, ?_⟩⟩
  · rw [← hDH.skeleton]; simp
  · rw [← harr, ← harr]
    constructor
    · rintro ⟨h1, h2⟩
      refine ⟨(hDH.skeleton a b).1 (by simp [h1]), fun h => ?_, fun h => ?_⟩
      · rw [h.2] at h2; simp at h2
      · rw [h.2] at h1; simp at h1
    · rintro ⟨h1, h2, h3⟩
      exact ((hDH.kinds a b h1).resolve_left h2).resolve_left h3

/-- **C218** (the chi-square and the G-square test). The context is the last column of a faithful discrete table. -/
theorem C218_chi {D : Fin (n + 1) → Fin (n + 1) → Prop} (hac : Acyclic D) (hroot : ∀ a, ¬ D a (Fin.last n)) {N : Nat} {sf : ℝ → Int → ℝ}
    (hsf : Chi.Survival sf) (gsq : Bool) {data : Fin N → Fin (n + 1) → Int} (hM : Discrete.Markov D data) (hf : Chi.FaithfulTable D data) (hN : 0 < N)
    (hsize : Chi.cells data < 2 ^ 63) :
    ∃ α0 < 1, ∀ α, α0 ≤ α → α < 1 → ∀ (stable : Bool) (ucRule : Nat), ucRule ≤ 2 → ∀ prio : Option Nat,
      ∃ H, cdnodAlg (Chi.chiQuery sf gsq data α) 0 stable ucRule prio Know.none = some H ∧ ∀ a b, (H.g a b = .null ↔ ¬ Adj D a b) ∧
        (H.Arrow a b ↔ ForcedRoot D (Fin.last n) a b) ∧
        ((H.g a b = .tail ∧ H.g b a = .tail) ↔ Adj D a b ∧ ¬ ForcedRoot D (Fin.last n) a b ∧ ¬ ForcedRoot D (Fin.last n) b a) := by
  obtain ⟨α0, h1, h2⟩ := Chi.C216_chi_oracle hac Function.injective_id hsf gsq hM
    (fun x y S a b c d => by simpa using hf x y S a b c (by simpa using d)) hN hsize
  exact ⟨α0, h1, fun α ha hb stable ucRule hr prio => C218_cdnod_complete D hac hroot _ 0 (h2 α ha hb).dsep stable ucRule hr prio⟩

/-- **C218** (Fisher's z). The context is the last column of linear faithful data. -/
theorem C218_fisherz {D : Fin (n + 1) → Fin (n + 1) → Prop} (hac : Acyclic D) (hroot : ∀ a, ¬ D a (Fin.last n)) {N : Nat} {data : Fin N → Nat → ℝ}
    (hm : LinearModel D (FisherZ.cols (n + 1) data)) (hf : FisherZ.FaithfulData D (FisherZ.cols (n + 1) data)) {Φ : ℝ → ℝ} (h0 : Φ 0 = 1 / 2)
    (hΦ : StrictMono Φ) (eps : ℝ) (hN : n + 3 ≤ N) :
    ∃ α0 < 1, ∀ α, α0 ≤ α → α < 1 → ∀ (stable : Bool) (ucRule : Nat), ucRule ≤ 2 → ∀ prio : Option Nat,
      ∃ H, cdnodAlg (FisherZ.pcTest (n + 1) Φ eps data α) 0 stable ucRule prio Know.none = some H ∧ ∀ a b, (H.g a b = .null ↔ ¬ Adj D a b) ∧
        (H.Arrow a b ↔ ForcedRoot D (Fin.last n) a b) ∧
        ((H.g a b = .tail ∧ H.g b a = .tail) ↔ Adj D a b ∧ ¬ ForcedRoot D (Fin.last n) a b ∧ ¬ ForcedRoot D (Fin.last n) b a) := by
  obtain ⟨α0, h1, h2⟩ := FisherZ.fisherz_oracle_all hac hm hf h0 hΦ eps hN
  refine ⟨α0, h1, fun α ha hb stable ucRule hr prio => C218_cdnod_complete D hac hroot _ 0 (fun x y S hxy _ hx hy => ?_) stable ucRule hr prio⟩
  rw [← h2 α ha hb x y S hxy hx hy]
  unfold TestFn.ind
  rw [decide_eq_true_iff]
  rfl

/-- A chain `1 → 0` behind the context 2: `2 → 1 → 0`. -/
def ctxChain (a b : Fin 3) : Prop := (a = 2 ∧ b = 1) ∨ (a = 1 ∧ b = 0)

/-- `0` and `2` are independent given `1`. -/
def ctxT : TestFn 3 Nat := ⟨fun x y S => if ((x = 0 ∧ y = 2) ∨ (x = 2 ∧ y = 0)) ∧ 1 ∈ S then 1 else 0, 0⟩

theorem ctxChain_acyclic : Acyclic ctxChain := by
  intro x h
  have key : ∀ a b, TransGen ctxChain a b → b < a := by
    intro a b hab
    have one : ∀ a b, ctxChain a b → b < a := by unfold ctxChain; decide
    induction hab with
    | single h => exact one _ _ h
    | tail _ h ih => exact (one _ _ h).trans ih
  exact absurd (key x x h) (lt_irrefl _)

theorem ctxT_oracle : DSepOracle ctxChain ctxT.ind := by
  have hind : ∀ x y S, ctxT.ind x y S = true ↔ ((x = 0 ∧ y = 2) ∨ (x = 2 ∧ y = 0)) ∧ 1 ∈ S := by
    intro x y S
    unfold TestFn.ind ctxT
    dsimp only
    split <;> simp_all
  have hadj : ∀ x y : Fin 3, x ≠ y → ¬ ((x = 0 ∧ y = 2) ∨ (x = 2 ∧ y = 0)) → Adj ctxChain x y := by
    unfold Adj ctxChain; decide
  have key : ∀ S : List (Fin 3), (0 : Fin 3) ∉ S → (2 : Fin 3) ∉ S → ((1 : Fin 3) ∈ S ↔ DSep ctxChain {z | z ∈ S} 0 2) := by
    intro S h0 h2
    constructor
    · intro h1
      have hset : {z | z ∈ S} = {p | ctxChain p 0} := by
        ext z
        have : z = 0 ∨ z = 1 ∨ z = 2 := by revert z; decide
        rcases this with rfl | rfl | rfl <;> simp [ctxChain, h0, h1, h2]
      rw [hset]
      refine local_markov ctxChain_acyclic (by decide) (by unfold Adj ctxChain; decide) ?_
      intro h
      rcases TransGen.head'_iff.1 h with ⟨c, hc, -⟩
      revert c; unfold ctxChain; decide
    · exact noncollider_mem (Z := {z | z ∈ S}) (x := 0) (z := 1) (y := 2) (by decide) (by decide) (by decide)
        (by unfold Adj ctxChain; decide) (by unfold Adj ctxChain; decide) (by unfold Collider ctxChain; decide)
  intro x y S hne _ hx hy
  rw [hind]
  by_cases h : (x = 0 ∧ y = 2) ∨ (x = 2 ∧ y = 0)
  · rcases h with ⟨rfl, rfl⟩ | ⟨rfl, rfl⟩
    · rw [← key S hx hy]; simp
    · rw [dSep_symm, ← key S hy hx]; simp
  · exact ⟨fun hc => absurd hc.1 h, fun hc => absurd (dConn_of_adj hne (hadj x y hne h)) hc⟩

/-- The hypotheses are met by `2 → 1 → 0` with context 2: both edges are directed, although the class alone forces neither. -/
theorem C218_example (stable : Bool) (ucRule : Nat) (hr : ucRule ≤ 2) (prio : Option Nat) :
    ∃ H, cdnodAlg (n := 2) ctxT 0 stable ucRule prio Know.none = some H ∧ H.Arrow 2 1 ∧ H.Arrow 1 0 := by
  obtain ⟨H, e, h⟩ := C218_cdnod_complete (n := 2) ctxChain ctxChain_acyclic (by unfold ctxChain; decide) ctxT 0 ctxT_oracle stable ucRule hr prio
  have f21 : ForcedRoot ctxChain (Fin.last 2) 2 1 := by
    intro F hF he ht
    rcases (he.1 2 1).1 (by unfold Adj ctxChain; decide) with h | h
    · exact h
    · exact absurd h (ht 1)
  refine ⟨H, e, (h 2 1).2.1.2 f21, (h 1 0).2.1.2 fun F hF he ht => ?_⟩
  rcases (he.1 1 0).1 (by unfold Adj ctxChain; decide) with h | h
  · exact h
  · have := (he.2 2 1 0).2 ⟨by decide, fun hc => absurd ((he.1 2 0).2 hc) (by unfold Adj ctxChain; decide), f21 F hF he ht, h⟩
    exact absurd this.2.2 (by unfold Collider ctxChain; decide)

end CL
