import Verif.Proofs.Tiers
import Verif.Props.BackgroundKnowledge
import Verif.Props.LatentData

/-!
# C217: PC with tiers

`add_node_to_tier` for every variable: no edge may point from a later to an earlier tier. With this kind of knowledge the missing fourth rule
(C65) does no harm: PC directs exactly what the equivalence class and the tiers force.
-/
namespace CL
open GG Relation Spec
variable {n : Nat} {P : Type} [LinearOrder P]

/-- With a d-separation oracle and true knowledge, PC leaves no edge undirected of which the knowledge forbids or requires a direction. -/
theorem pc_uses_knowledge (D : Fin n → Fin n → Prop) (hac : Acyclic D) (T : TestFn n P) (zero : P) (ho : DSepOracle D T.ind) (stable : Bool)
    (ucRule : Nat) (prio : Option Nat) (k : Know n) (hk : k.TrueOf D)
    (hban : (stable = true ∧ ucRule ≠ 0) ∨ ∀ a b, ¬ (k.forb a b = true ∧ k.forb b a = true)) {H : GG n}
    (hH : pcAlg T zero stable ucRule prio k = some H) {a b : Fin n} (h1 : H.g a b = .tail) (h2 : H.g b a = .tail) :
    k.forb a b = false ∧ k.req a b = false := by
  obtain ⟨s, e1, e2, e3, -, e5⟩ := skeleton_oracle hac ho stable k hk (hban.imp_left And.left)
  obtain ⟨h6, h7⟩ := PInv.orientByBk hk e2 e3
  have base : (orientByBk k s.1).g a b = .tail → (orientByBk k s.1).g b a = .tail → k.forb a b = false ∧ k.req a b = false := by
    intro t1 t2
    obtain ⟨-, c2, c3⟩ := orientByBk_cases (k := k) e2.pd e3 a b
    by_cases hu : s.1.g a b = .tail ∧ s.1.g b a = .tail
    · rcases c3 hu.1 hu.2 with h | ⟨h, -⟩ | ⟨h, -⟩
      · exact ⟨h.2.2.1, h.2.2.2.2.1⟩
      · rw [h.2] at t2; simp at t2
      · rw [h.2] at t1; simp at t1
    · have c4 := (orientByBk_cases (k := k) e2.pd e3 b a).2.1 fun h => hu ⟨h.2, h.1⟩
      exact absurd ⟨(c2 hu).symm.trans t1, c4.symm.trans t2⟩ hu
  have after : ∀ {K : GG n}, UCDone D (orientByBk k s.1) K → K.g a b = .tail → K.g b a = .tail → k.forb a b = false ∧ k.req a b = false := by
    intro K hK t1 t2
    have na : ∀ x y, Adj D x y → K.g x y = .tail → (orientByBk k s.1).g x y = .tail := by
      intro x y hxy ht
      rcases h6.pd.mark x y with h | h | h
      · exact absurd h ((h6.adj x y).2 hxy)
      · exact h
      · have := (hK.arrow y x).2 (Or.inl h)
        rw [ht] at this; simp at this
    have hadj : Adj D a b := (hK.inv.adj a b).1 (by rw [t1]; simp)
    exact base (na a b hadj t1) (na b a hadj.symm t2)
  have undo : ∀ {K : GG n}, Refines K H → K.g a b = .tail ∧ K.g b a = .tail := by
    intro K hr
    by_contra hc
    have t1 := hr.keep a b hc
    have t2 := hr.keep b a fun h => hc ⟨h.2, h.1⟩
    exact hc ⟨t1.symm.trans h1, t2.symm.trans h2⟩
  unfold pcAlg at hH
  rw [e1] at hH
  simp only [Option.bind_some] at hH
  by_cases r0 : ucRule = 0
  · rw [if_pos r0] at hH
    have hd := ucSepset_done hac hk T (prio.getD 3) h6 h7 s.2 (by
      intro x y z a1 a2 a3 a4
      rw [e5 x y z a1 a2 a3 a4]
      have := hban.resolve_left (fun h => h.2 r0) x z
      exact ⟨fun h => h.elim id fun h => absurd ⟨h.1, h.2.1⟩ this, Or.inl⟩)
    obtain ⟨H', f1, -, f3, -⟩ := meek_oracle hac hk hd.minv
    obtain rfl : H = H' := Option.some.inj (hH.symm.trans f1)
    exact after hd (undo f3).1 (undo f3).2
  · rw [if_neg r0] at hH
    by_cases r1 : ucRule = 1
    · rw [if_pos r1] at hH
      have hd := maxp_done hac hk ho (prio.getD 3) h6 h7
      obtain ⟨H', f1, -, f3, -⟩ := meek_oracle hac hk hd.minv
      obtain rfl : H = H' := Option.some.inj (hH.symm.trans f1)
      exact after hd (undo f3).1 (undo f3).2
    · rw [if_neg r1] at hH
      by_cases r2 : ucRule = 2
      · rw [if_pos r2] at hH
        have hd := definiteMaxp_done hac hk ho zero (prio.getD 4) h6 h7
        obtain ⟨K, g1, g2, g3⟩ := definiteMeek_oracle (k := k) hac hd
        rw [g1] at hH
        simp only [Option.bind_some] at hH
        obtain ⟨H', f1, -, f3, -⟩ := meek_oracle hac hk g2
        obtain rfl : H = H' := Option.some.inj (hH.symm.trans f1)
        obtain ⟨t1, t2⟩ := undo f3
        have hc : (definiteMaxp T zero (prio.getD 4) k (orientByBk k s.1)).G.g a b = .tail ∧
            (definiteMaxp T zero (prio.getD 4) k (orientByBk k s.1)).G.g b a = .tail := by
          by_contra hc
          exact hc ⟨(g3.keep a b hc).symm.trans t1, (g3.keep b a fun h => hc ⟨h.2, h.1⟩).symm.trans t2⟩
        exact after hd.done hc.1 hc.2
      · rw [if_neg r2] at hH; cases hH

/-- The edge `a → b` is in every DAG of the equivalence class of `D` that has no edge from a later to an earlier tier. -/
def Forced (D : Fin n → Fin n → Prop) (tier : Fin n → Nat) (a b : Fin n) : Prop :=
  ∀ F : Fin n → Fin n → Prop, Acyclic F → MarkovEquiv D F → (∀ a b, F a b → tier a ≤ tier b) → F a b

/-- **C217.** `D` is the true DAG, the test answers its d-separations, every variable is in a tier and no edge of `D` points from a later to an
earlier tier. With the knowledge of the tiers, for the collider rules 0, 1, 2, every priority and both skeleton modes, PC returns the graph with
the adjacencies of `D` in which an edge is directed `a → b` exactly when every DAG equivalent to `D` that respects the tiers has `a → b`, and
undirected when these DAGs disagree. -/
theorem C217_tiers_complete (D : Fin n → Fin n → Prop) (hac : Acyclic D) (T : TestFn n P) (zero : P) (ho : DSepOracle D T.ind) (stable : Bool)
    (ucRule : Nat) (hr : ucRule ≤ 2) (prio : Option Nat) (tier : Fin n → Nat) (hD : ∀ a b, D a b → tier a ≤ tier b) (k : Know n)
    (hforb : ∀ a b, k.forb a b = true ↔ tier b < tier a) (hreq : ∀ a b, k.req a b = false) :
    ∃ H, pcAlg T zero stable ucRule prio k = some H ∧ ∀ a b, (H.g a b = .null ↔ ¬ Adj D a b) ∧ (H.Arrow a b ↔ Forced D tier a b) ∧
      ((H.g a b = .tail ∧ H.g b a = .tail) ↔ Adj D a b ∧ ¬ Forced D tier a b ∧ ¬ Forced D tier b a) := by
  have hk : ∀ {F : Fin n → Fin n → Prop}, (∀ a b, F a b → tier a ≤ tier b) → k.TrueOf F := fun {F} hF =>
    ⟨fun a b h hab => absurd (hF a b hab) (not_le.2 ((hforb a b).1 h)), fun a b h => by rw [hreq] at h; cases h⟩
  have hban : (stable = true ∧ ucRule ≠ 0) ∨ ∀ a b, ¬ (k.forb a b = true ∧ k.forb b a = true) := by
    right
    rintro a b ⟨h1, h2⟩
    rw [hforb] at h1 h2
    omega
  obtain ⟨H, e, hc⟩ := pc_correct_class D hac T zero ho stable ucRule hr prio k (hk hD) hban
  have hDH := hc D hac ⟨fun _ _ => Iff.rfl, fun _ _ _ => Iff.rfl⟩ (hk hD)
  have hund : ∀ a b, H.g a b = .tail → H.g b a = .tail → tier a = tier b := by
    intro a b h1 h2
    have f1 := (pc_uses_knowledge D hac T zero ho stable ucRule prio k (hk hD) hban e h1 h2).1
    have f2 := (pc_uses_knowledge D hac T zero ho stable ucRule prio k (hk hD) hban e h2 h1).1
    have g1 : ¬ tier b < tier a := fun h => by rw [(hforb a b).2 h] at f1; cases f1
    have g2 : ¬ tier a < tier b := fun h => by rw [(hforb b a).2 h] at f2; cases f2
    omega
  have harr : ∀ a b, H.Arrow a b ↔ Forced D tier a b := fun a b =>
    ⟨fun h F hF he ht => (hc F hF he (hk ht)).directed a b h,
      fun h => hDH.tiers hac hD hund (h D hac ⟨fun _ _ => Iff.rfl, fun _ _ _ => Iff.rfl⟩ hD) h⟩
  refine ⟨H, e, fun a b => ⟨?_, harr a b, ?_⟩⟩
  · rw [← hDH.skeleton]; simp
  · rw [← harr, ← harr]
    constructor
    · rintro ⟨h1, h2⟩
      refine ⟨(hDH.skeleton a b).1 (by simp [h1]), fun h => ?_, fun h => ?_⟩
      · rw [h.2] at h2; simp at h2
      · rw [h.2] at h1; simp at h1
    · rintro ⟨h1, h2, h3⟩
      exact ((hDH.kinds a b h1).resolve_left h2).resolve_left h3

/-- The answers of a `BackgroundKnowledge` object about the variables `0 … n-1`. -/
def knowOf (rx : String → Fin n → Bool) (s : BK.State (Fin n)) : Know n := ⟨BK.isForbidden rx s, BK.isRequired rx s⟩

/-- **C217** (the knowledge object). After any history of `add_node_to_tier` and `remove_node_from_tier` that leaves every variable `v` in the tier
`tier v`, the object's answers are those `C217_tiers_complete` asks for. -/
theorem C217_tier_object (rx : String → Fin n → Bool) (hist : List (BK.Op (Fin n))) (hp : ∀ o ∈ hist, ∃ x t, o = .addTier x t ∨ o = .remTier x t)
    (tier : Fin n → Nat) (ht : ∀ v, BK.inWhichTier (BK.run hist) v = some (tier v)) :
    (∀ a b, (knowOf rx (BK.run hist)).forb a b = true ↔ tier b < tier a) ∧ ∀ a b, (knowOf rx (BK.run hist)).req a b = false := by
  have hno : ∀ on off : BK.Op (Fin n), (∀ x t, on ≠ .addTier x t ∧ on ≠ .remTier x t) → ¬ BK.LastIs hist on off := by
    rintro on off hne ⟨pre, post, rfl, -⟩
    obtain ⟨x, t, h⟩ := hp on (by simp)
    have := hne x t
    tauto
  constructor
  · intro a b
    show BK.isForbidden rx (BK.run hist) a b = true ↔ _
    rw [BK.C22_is_forbidden]
    constructor
    · rintro (h | ⟨p, q, h, -⟩ | ⟨ta, tb, h1, h2, h3⟩)
      · exact absurd h (hno _ _ fun x t => ⟨by simp, by simp⟩)
      · exact absurd h (hno _ _ fun x t => ⟨by simp, by simp⟩)
      · rw [← BK.C22_is_in_which_tier, ht] at h1 h2
        simp only [Option.some.injEq] at h1 h2
        omega
    · intro h
      exact Or.inr (Or.inr ⟨tier a, tier b, (BK.C22_is_in_which_tier _ _ _).1 (ht a), (BK.C22_is_in_which_tier _ _ _).1 (ht b), h⟩)
  · intro a b
    show BK.isRequired rx (BK.run hist) a b = false
    rw [Bool.eq_false_iff]
    intro h
    rcases (BK.C22_is_required rx hist a b).1 h with h | ⟨p, q, h, -⟩
    · exact hno _ _ (fun x t => ⟨by simp, by simp⟩) h
    · exact hno _ _ (fun x t => ⟨by simp, by simp⟩) h

/-- **C217** (Fisher's z). On linear, faithful data with uncorrelated errors there is a level below 1 from which on PC with the tiers returns what
the class and the tiers force. -/
theorem C217_fisherz {D : Fin n → Fin n → Prop} (hac : Acyclic D) {N : Nat} {data : Fin N → Nat → ℝ} (hm : LinearModel D (FisherZ.cols n data))
    (hf : FisherZ.FaithfulData D (FisherZ.cols n data)) {Φ : ℝ → ℝ} (h0 : Φ 0 = 1 / 2) (hΦ : StrictMono Φ) (eps : ℝ) (hN : n + 2 ≤ N)
    (tier : Fin n → Nat) (hD : ∀ a b, D a b → tier a ≤ tier b) (k : Know n) (hforb : ∀ a b, k.forb a b = true ↔ tier b < tier a)
    (hreq : ∀ a b, k.req a b = false) :
    ∃ α0 < 1, ∀ α, α0 ≤ α → α < 1 → ∀ (stable : Bool) (ucRule : Nat), ucRule ≤ 2 → ∀ prio : Option Nat,
      ∃ H, pcAlg (FisherZ.pcTest n Φ eps data α) 0 stable ucRule prio k = some H ∧ ∀ a b, (H.g a b = .null ↔ ¬ Adj D a b) ∧
        (H.Arrow a b ↔ Forced D tier a b) ∧
        ((H.g a b = .tail ∧ H.g b a = .tail) ↔ Adj D a b ∧ ¬ Forced D tier a b ∧ ¬ Forced D tier b a) := by
  obtain ⟨α0, h1, h2⟩ := FisherZ.fisherz_oracle_all hac hm hf h0 hΦ eps hN
  refine ⟨α0, h1, fun α ha hb stable ucRule hr prio => C217_tiers_complete D hac _ 0 (fun x y S hxy _ hx hy => ?_) stable ucRule hr prio tier hD k hforb
    hreq⟩
  rw [← h2 α ha hb x y S hxy hx hy]
  unfold TestFn.ind
  rw [decide_eq_true_iff]
  rfl

/-- **C217** (the chi-square and the G-square test). -/
theorem C217_chi {D : Fin n → Fin n → Prop} (hac : Acyclic D) {N : Nat} {sf : ℝ → Int → ℝ} (hsf : Chi.Survival sf) (gsq : Bool)
    {data : Fin N → Fin n → Int} (hM : Discrete.Markov D data) (hf : Chi.FaithfulTable D data) (hN : 0 < N) (hsize : Chi.cells data < 2 ^ 63)
    (tier : Fin n → Nat) (hD : ∀ a b, D a b → tier a ≤ tier b) (k : Know n) (hforb : ∀ a b, k.forb a b = true ↔ tier b < tier a)
    (hreq : ∀ a b, k.req a b = false) :
    ∃ α0 < 1, ∀ α, α0 ≤ α → α < 1 → ∀ (stable : Bool) (ucRule : Nat), ucRule ≤ 2 → ∀ prio : Option Nat,
      ∃ H, pcAlg (Chi.chiQuery sf gsq data α) 0 stable ucRule prio k = some H ∧ ∀ a b, (H.g a b = .null ↔ ¬ Adj D a b) ∧
        (H.Arrow a b ↔ Forced D tier a b) ∧
        ((H.g a b = .tail ∧ H.g b a = .tail) ↔ Adj D a b ∧ ¬ Forced D tier a b ∧ ¬ Forced D tier b a) := by
  obtain ⟨α0, h1, h2⟩ := Chi.C216_chi_oracle hac Function.injective_id hsf gsq hM
    (fun x y S a b c d => by simpa using hf x y S a b c (by simpa using d)) hN hsize
  exact ⟨α0, h1, fun α ha hb stable ucRule hr prio => C217_tiers_complete D hac _ 0 (h2 α ha hb).dsep stable ucRule hr prio tier hD k hforb hreq⟩

/-- The hypotheses are met by the chain `0 → 1 → 2` with `0` in tier 0 and `1`, `2` in tier 1. The class alone forces nothing; with the tiers PC
returns `0 → 1 → 2`, the second arrow by Meek's first rule. Moving `2` to a tier and back does not matter. -/
theorem C217_example (stable : Bool) (ucRule : Nat) (hr : ucRule ≤ 2) (prio : Option Nat) (rx : String → Fin 3 → Bool) :
    ∃ H, pcAlg chainT 0 stable ucRule prio
        (knowOf rx (BK.run [.addTier 0 0, .addTier 2 0, .addTier 1 1, .remTier 2 0, .addTier 2 1])) = some H ∧ H.Arrow 0 1 ∧ H.Arrow 1 2 ∧
      ¬ Compelled chainD 0 1 ∧ ¬ Compelled chainD 1 2 := by
  obtain ⟨h1, h2⟩ := C217_tier_object rx [.addTier 0 0, .addTier 2 0, .addTier 1 1, .remTier 2 0, .addTier 2 1] (by simp) ![0, 1, 1] (by decide)
  obtain ⟨H, e, h⟩ := C217_tiers_complete chainD chainD_acyclic chainT 0 chainT_oracle stable ucRule hr prio ![0, 1, 1]
    (by unfold chainD; decide) _ h1 h2
  have f01 : Forced chainD ![0, 1, 1] 0 1 := by
    intro F hF he ht
    rcases (he.1 0 1).1 (by unfold Adj chainD; decide) with h | h
    · exact h
    · exact absurd (ht _ _ h) (by decide)
  refine ⟨H, e, (h 0 1).2.1.2 f01, (h 1 2).2.1.2 fun F hF he ht => ?_, ?_, ?_⟩
  · rcases (he.1 1 2).1 (by unfold Adj chainD; decide) with h | h
    · exact h
    · have := (he.2 0 1 2).2 ⟨by decide, fun hc => absurd ((he.1 0 2).2 hc) (by unfold Adj chainD; decide), f01 F hF he ht, h⟩
      exact absurd this.2.2 (by unfold Collider chainD; decide)
  all_goals
    rintro ⟨-, hc⟩
    have hac : Acyclic fun a b : Fin 3 => chainD b a := fun x hx => chainD_acyclic x ((Relation.transGen_swap.1 hx))
    have := hc (fun a b => chainD b a) hac ⟨fun a b => or_comm, fun a b c => ?_⟩
    · exact absurd this (by unfold chainD; decide)
    · revert a b c
      unfold UnshieldedCollider Collider Adj chainD
      decide

end CL
