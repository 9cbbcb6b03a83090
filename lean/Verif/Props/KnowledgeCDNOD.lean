import Verif.Props.KnowledgePC
import Verif.Props.CdnodComplete
import Verif.Props.Mvpc

/-!
# C225: CD-NOD with a correct background knowledge object, on data
-/
namespace CL
open GG Relation Spec
variable {n : Nat} {P : Type} [LinearOrder P]

/-- With a d-separation oracle and true knowledge, CD-NOD leaves no edge undirected of which the knowledge forbids or requires a direction. -/
theorem cdnod_uses_knowledge (D : Fin (n + 1) → Fin (n + 1) → Prop) (hac : Acyclic D) (hroot : ∀ a, ¬ D a (Fin.last n)) (T : TestFn (n + 1) P) (zero : P)
    (ho : DSepOracle D T.ind) (stable : Bool) (ucRule : Nat) (prio : Option Nat) (k : Know (n + 1)) (hk : k.TrueOf D) {H : GG (n + 1)}
    (hH : cdnodAlg T zero stable ucRule prio k = some H) {a b : Fin (n + 1)} (h1 : H.g a b = .tail) (h2 : H.g b a = .tail) :
    k.forb a b = false ∧ k.req a b = false := by
  have hnone : (Know.none : Know (n + 1)).TrueOf D := ⟨by simp [Know.none], by simp [Know.none]⟩
  obtain ⟨s, e1, e2, -, -, e5⟩ := skeleton_oracle hac ho stable Know.none hnone (Or.inr (by simp [Know.none]))
  obtain ⟨s', h1', hi, -⟩ := skeleton_spec stable T.ind (Know.none : Know (n + 1))
  obtain rfl : s = s' := by rw [e1] at h1'; exact Option.some.inj h1'
  obtain ⟨p1, p2, p3⟩ := orientIndex_spec (Fin.last n) hi.und hi.sound'
  have hI : PInv D (orientIndex s.1 (Fin.last n)) := by
    refine ⟨p1, fun a b => ?_, fun a b => ?_⟩
    · rw [← e2.adj a b, p3]; grind
    · rw [p3]
      intro h
      have hn : s.1.g b a ≠ .null := by intro hh; simp [hh] at h
      have ha : a = Fin.last n := by by_contra hh; simp [hn, hh] at h
      rcases (e2.adj b a).1 hn with hd | hd
      · exact absurd (ha ▸ hd) (hroot b)
      · exact hd
  obtain ⟨h6, h7⟩ := PInv.orientByBk hk hI p2
  have base : (orientByBk k (orientIndex s.1 (Fin.last n))).g a b = .tail → (orientByBk k (orientIndex s.1 (Fin.last n))).g b a = .tail →
      k.forb a b = false ∧ k.req a b = false := by
    intro t1 t2
    obtain ⟨-, c2, c3⟩ := orientByBk_cases (k := k) hI.pd p2 a b
    by_cases hu : (orientIndex s.1 (Fin.last n)).g a b = .tail ∧ (orientIndex s.1 (Fin.last n)).g b a = .tail
    · rcases c3 hu.1 hu.2 with h | ⟨h, -⟩ | ⟨h, -⟩
      · exact ⟨h.2.2.1, h.2.2.2.2.1⟩
      · rw [h.2] at t2; simp at t2
      · rw [h.2] at t1; simp at t1
    · have c4 := (orientByBk_cases (k := k) hI.pd p2 b a).2.1 fun h => hu ⟨h.2, h.1⟩
      exact absurd ⟨(c2 hu).symm.trans t1, c4.symm.trans t2⟩ hu
  have after : ∀ {K : GG (n + 1)}, UCDone D (orientByBk k (orientIndex s.1 (Fin.last n))) K → K.g a b = .tail → K.g b a = .tail → k.forb a b = false ∧ k.req a b = false := by
    intro K hK t1 t2
    have na : ∀ x y, Adj D x y → K.g x y = .tail → (orientByBk k (orientIndex s.1 (Fin.last n))).g x y = .tail := by
      intro x y hxy ht
      rcases h6.pd.mark x y with h | h | h
      · exact absurd h ((h6.adj x y).2 hxy)
      · exact h
      · have := (hK.arrow y x).2 (Or.inl h)
        rw [ht] at this; simp at this
    have hadj : Adj D a b := (hK.inv.adj a b).1 (by rw [t1]; simp)
    exact base (na a b hadj t1) (na b a hadj.symm t2)
  have undo : ∀ {K : GG (n + 1)}, Refines K H → K.g a b = .tail ∧ K.g b a = .tail := by
    intro K hr
    by_contra hc
    have t1 := hr.keep a b hc
    have t2 := hr.keep b a fun h => hc ⟨h.2, h.1⟩
    exact hc ⟨t1.symm.trans h1, t2.symm.trans h2⟩
  unfold cdnodAlg at hH
  rw [e1] at hH
  simp only [Option.bind_some] at hH
  by_cases r0 : ucRule = 0
  · rw [if_pos r0] at hH
    have hd := ucSepset_done hac hk T (prio.getD 3) h6 h7 s.2 (by
      intro x y z a1 a2 a3 a4
      rw [e5 x y z a1 a2 a3 a4]
      simp [Know.none])
    obtain ⟨H', f1, -, f3, -⟩ := meek_oracle hac hk hd.minv
    obtain rfl : H = H' := Option.some.inj (hH.symm.trans f1)
    exact after hd (undo f3).1 (undo f3).2
  · rw [if_neg r0] at hH
    by_cases r1 : ucRule = 1
    · rw [if_pos r1] at hH
      have hd := maxp_done hac hk ho (prio.getD 3) h6 h7
      obtain ⟨H', f1, -, f3, -⟩ := meek_oracle hac hk hd.minv
      obtain rfl : H = H' := Option.some.inj (hH.symm.trans f1)
      exact after hd (undo f3).1 (undo f3).2
    · rw [if_neg r1] at hH
      by_cases r2 : ucRule = 2
      · rw [if_pos r2] at hH
        have hd := definiteMaxp_done hac hk ho zero (prio.getD 4) h6 h7
        obtain ⟨K, g1, g2, g3⟩ := definiteMeek_oracle (k := k) hac hd
        rw [g1] at hH
        simp only [Option.bind_some] at hH
        obtain ⟨H', f1, -, f3, -⟩ := meek_oracle hac hk g2
        obtain rfl : H = H' := Option.some.inj (hH.symm.trans f1)
        obtain ⟨t1, t2⟩ := undo f3
        have hc : (definiteMaxp T zero (prio.getD 4) k (orientByBk k (orientIndex s.1 (Fin.last n)))).G.g a b = .tail ∧
            (definiteMaxp T zero (prio.getD 4) k (orientByBk k (orientIndex s.1 (Fin.last n)))).G.g b a = .tail := by
          by_contra hc
          exact hc ⟨(g3.keep a b hc).symm.trans t1, (g3.keep b a fun h => hc ⟨h.2, h.1⟩).symm.trans t2⟩
        exact after hd.done hc.1 hc.2
      · rw [if_neg r2] at hH; cases hH

/-- What a result of CD-NOD with correct knowledge is, for a context `c`. -/
def ContextResult (D : Fin n → Fin n → Prop) (c : Fin n) (rx : String → Fin n → Bool) (hist : List (BK.Op (Fin n))) (H : GG n) : Prop :=
  (∀ a b, H.g a b = .null ↔ ¬ Adj D a b) ∧ (∀ a b, Follows D (fun a b => a = c ∨ Told rx hist a b) a b → H.Arrow a b) ∧
  (∀ a b, H.Arrow a b → ∀ F, Acyclic F → MarkovEquiv D F → (∀ x, ¬ F x c) → ToldTrue rx hist F → F a b) ∧
  ∀ a b, Adj D a b → H.Arrow a b ∨ H.Arrow b a ∨ (H.g a b = .tail ∧ H.g b a = .tail)

/-- **C225** (d-separation oracle). -/
theorem C225_oracle (D : Fin (n + 1) → Fin (n + 1) → Prop) (hac : Acyclic D) (hroot : ∀ a, ¬ D a (Fin.last n)) (T : TestFn (n + 1) P) (zero : P)
    (ho : DSepOracle D T.ind) (stable : Bool) (ucRule : Nat) (hr : ucRule ≤ 2) (prio : Option Nat) (rx : String → Fin (n + 1) → Bool)
    (hist : List (BK.Op (Fin (n + 1)))) (ht : ToldTrue rx hist D) :
    ∃ H, cdnodAlg T zero stable ucRule prio (knowOf rx (BK.run hist)) = some H ∧ ContextResult D (Fin.last n) rx hist H := by
  have hk := toldTrue_iff rx hist D ht
  obtain ⟨H, e, hDH, hout⟩ := C52_cdnod_correct D hac hroot T zero ho stable ucRule hr prio _ ⟨hk.1, hk.2⟩
  refine ⟨H, e, fun a b => by rw [← hDH.skeleton]; simp, fun a b => hDH.follows hac fun a b ha hab => ?_, fun a b h F hF he hc hT => ?_, hDH.kinds⟩
  · rcases hab with rfl | hab
    · exact hout b ((hDH.skeleton _ _).2 ha)
    · have hkn : (knowOf rx (BK.run hist)).forb b a = true ∨ (knowOf rx (BK.run hist)).req a b = true := by
        rcases hab with h | h | ⟨ta, tb, h1, h2, h3⟩ | h | h
        · exact Or.inl ((BK.C22_is_forbidden rx hist b a).2 (Or.inl h))
        · exact Or.inl ((BK.C22_is_forbidden rx hist b a).2 (Or.inr (Or.inl h)))
        · exact Or.inl ((BK.C22_is_forbidden rx hist b a).2 (Or.inr (Or.inr ⟨tb, ta, h2, h1, h3⟩)))
        · exact Or.inr ((BK.C22_is_required rx hist a b).2 (Or.inl h))
        · exact Or.inr ((BK.C22_is_required rx hist a b).2 (Or.inr h))
      have hD : D a b := by
        rcases hkn with h | h
        · exact ha.resolve_right (hk.1 b a h)
        · exact hk.2 a b h
      rcases hDH.kinds a b ha with h1 | h1 | ⟨h1, h2⟩
      · exact h1
      · exact absurd (hDH.directed _ _ h1) (hac.asymm hD)
      · exfalso
        rcases hkn with h | h
        · have := (cdnod_uses_knowledge D hac hroot T zero ho stable ucRule prio _ hk e h2 h1).1
          rw [h] at this; cases this
        · have := (cdnod_uses_knowledge D hac hroot T zero ho stable ucRule prio _ hk e h1 h2).2
          rw [h] at this; cases this
  · have hkF := toldTrue_iff rx hist F hT
    obtain ⟨H', e', hFH, -⟩ := C52_cdnod_correct F hF hc T zero (ho.transfer hac hF he) stable ucRule hr prio _ ⟨hkF.1, hkF.2⟩
    obtain rfl : H = H' := Option.some.inj (e.symm.trans e')
    exact hFH.directed a b h

/-- **C225** (Fisher's z). -/
theorem C225_fisherz {D : Fin (n + 1) → Fin (n + 1) → Prop} (hac : Acyclic D) (hroot : ∀ a, ¬ D a (Fin.last n)) {N : Nat} {data : Fin N → Nat → ℝ}
    (hm : LinearModel D (FisherZ.cols (n + 1) data)) (hf : FisherZ.FaithfulData D (FisherZ.cols (n + 1) data)) {Φ : ℝ → ℝ} (h0 : Φ 0 = 1 / 2)
    (hΦ : StrictMono Φ) (eps : ℝ) (hN : n + 3 ≤ N) (rx : String → Fin (n + 1) → Bool) (hist : List (BK.Op (Fin (n + 1)))) (ht : ToldTrue rx hist D) :
    ∃ α0 < 1, ∀ α, α0 ≤ α → α < 1 → ∀ (stable : Bool) (ucRule : Nat), ucRule ≤ 2 → ∀ prio : Option Nat,
      ∃ H, cdnodAlg (FisherZ.pcTest (n + 1) Φ eps data α) 0 stable ucRule prio (knowOf rx (BK.run hist)) = some H ∧ ContextResult D (Fin.last n) rx hist H := by
  obtain ⟨α0, h1, h2⟩ := FisherZ.fisherz_oracle_all hac hm hf h0 hΦ eps hN
  refine ⟨α0, h1, fun α ha hb stable ucRule hr prio => C225_oracle D hac hroot _ 0 (fun x y S hxy _ hx hy => ?_) stable ucRule hr prio rx hist ht⟩
  rw [← h2 α ha hb x y S hxy hx hy]
  unfold TestFn.ind
  rw [decide_eq_true_iff]
  rfl

/-- **C225** (chi-square and G-square). -/
theorem C225_chi {D : Fin (n + 1) → Fin (n + 1) → Prop} (hac : Acyclic D) (hroot : ∀ a, ¬ D a (Fin.last n)) {N : Nat} {sf : ℝ → Int → ℝ}
    (hsf : Chi.Survival sf) (gsq : Bool) {data : Fin N → Fin (n + 1) → Int} (hM : Discrete.Markov D data) (hf : Chi.FaithfulTable D data) (hN : 0 < N)
    (hsize : Chi.cells data < 2 ^ 63) (rx : String → Fin (n + 1) → Bool) (hist : List (BK.Op (Fin (n + 1)))) (ht : ToldTrue rx hist D) :
    ∃ α0 < 1, ∀ α, α0 ≤ α → α < 1 → ∀ (stable : Bool) (ucRule : Nat), ucRule ≤ 2 → ∀ prio : Option Nat,
      ∃ H, cdnodAlg (Chi.chiQuery sf gsq data α) 0 stable ucRule prio (knowOf rx (BK.run hist)) = some H ∧ ContextResult D (Fin.last n) rx hist H := by
  obtain ⟨α0, h1, h2⟩ := Chi.C216_chi_oracle hac Function.injective_id hsf gsq hM
    (fun x y S a b c d => by simpa using hf x y S a b c (by simpa using d)) hN hsize
  exact ⟨α0, h1, fun α ha hb stable ucRule hr prio => C225_oracle D hac hroot _ 0 (h2 α ha hb).dsep stable ucRule hr prio rx hist ht⟩

/-- Two variables `0 → 1` and a context that affects neither. -/
def ctxEdge (a b : Fin 3) : Bool := a == 0 && b == 1

/-- The d-separations of `ctxEdge`. -/
def ctxEdgeT : TestFn 3 Nat := ⟨fun x y S => if Mvpc.sepIn ctxEdge x y S then 1 else 0, 0⟩

/-- The hypotheses are met by `0 → 1` with an isolated context, and the knowledge that 1 is not in an earlier tier than 0 (the tiers 0 and 1) directs
the edge; without it the edge stays undirected (C218). -/
theorem C225_example (stable : Bool) (ucRule : Nat) (hr : ucRule ≤ 2) (prio : Option Nat) (rx : String → Fin 3 → Bool) :
    ∃ H, cdnodAlg (n := 2) ctxEdgeT 0 stable ucRule prio (knowOf rx (BK.run [.addTier 0 0, .addTier 1 1])) = some H ∧ H.Arrow 0 1 ∧ H.g 0 2 = .null := by
  have hrank : ∀ a b, ctxEdge a b = true → (fun v : Fin 3 => v.val) a < (fun v : Fin 3 => v.val) b := by unfold ctxEdge; decide
  have hac : Acyclic fun a b => ctxEdge a b = true := acyclic_of_rank (ρ := fun v : Fin 3 => v.val) hrank
  have ho : DSepOracle (fun a b => ctxEdge a b = true) ctxEdgeT.ind := by
    intro x y S h1 h2 h3 h4
    rw [← Mvpc.sepIn_oracle _ hrank (fun a => a.isLt) x y S h1 h2 h3 h4]
    unfold TestFn.ind ctxEdgeT
    dsimp only
    split <;> simp_all
  obtain ⟨hist, hh⟩ : ∃ hist : List (BK.Op (Fin 3)), hist = [.addTier 0 0, .addTier 1 1] := ⟨_, rfl⟩
  have h0 : BK.InTier hist 0 0 := (BK.C22_is_in_which_tier hist 0 0).1 (by rw [hh]; decide)
  have h1 : BK.InTier hist 1 1 := (BK.C22_is_in_which_tier hist 1 1).1 (by rw [hh]; decide)
  have hno : ∀ on off : BK.Op (Fin 3), (∀ x t, on ≠ .addTier x t) → ¬ BK.LastIs hist on off := by
    rintro on off hne ⟨pre, post, he, -⟩
    have : on ∈ hist := by rw [he]; simp
    rw [hh] at this
    rcases List.mem_cons.1 this with h | h
    · exact hne _ _ h
    · exact hne _ _ (List.mem_singleton.1 h)
  have hT : ToldTrue rx hist fun a b => ctxEdge a b = true := by
    refine ⟨fun a b _ h => hno _ _ (by simp) h, fun a b _ p q h => absurd h (hno _ _ (by simp)), fun a b hab ta tb ha hb => ?_,
      fun a b h => absurd h (hno _ _ (by simp)), fun a b p q h => absurd h (hno _ _ (by simp))⟩
    obtain ⟨rfl, rfl⟩ : a = 0 ∧ b = 1 := by simpa [ctxEdge] using hab
    have g0 := (BK.C22_is_in_which_tier hist 0 ta).2 ha
    rw [(BK.C22_is_in_which_tier hist 0 0).2 h0] at g0
    obtain rfl := Option.some.inj g0
    exact Nat.zero_le _
  rw [← hh]
  obtain ⟨H, e, hs, hf, -, -⟩ := C225_oracle (n := 2) (fun a b => ctxEdge a b = true) hac (by unfold ctxEdge; decide) ctxEdgeT 0 ho stable ucRule hr prio rx hist hT
  exact ⟨H, e, hf 0 1 (.told (Or.inl rfl) (Or.inr (Or.inr (Or.inr (Or.inl ⟨0, 1, h0, h1, by decide⟩))))), (hs 0 2).2 (by unfold Adj; decide)⟩

end CL
