import Verif.Props.TierKnowledge

/-!
# C223: PC with a correct background knowledge object, on data
-/
namespace CL
open GG Relation Spec
variable {n : Nat} {P : Type} [LinearOrder P]

/-- What the user has told the object, by the calls that still stand, is true of `F`: no edge `a → b` of `F` is forbidden (by node, by pattern or by
tier), and the required edges are edges of `F`. -/
def ToldTrue (rx : String → Fin n → Bool) (hist : List (BK.Op (Fin n))) (F : Fin n → Fin n → Prop) : Prop :=
  (∀ a b, F a b → ¬ BK.LastIs hist (.addForb a b) (.remForb a b)) ∧
  (∀ a b, F a b → ∀ p q, BK.LastIs hist (.addForbPat p q) (.remForbPat p q) → ¬ (rx p a = true ∧ rx q b = true)) ∧
  (∀ a b, F a b → ∀ ta tb, BK.InTier hist a ta → BK.InTier hist b tb → ta ≤ tb) ∧
  (∀ a b, BK.LastIs hist (.addReq a b) (.remReq a b) → F a b) ∧
  ∀ a b p q, BK.LastIs hist (.addReqPat p q) (.remReqPat p q) → rx p a = true → rx q b = true → F a b

/-- The user has said something about the direction of the edge between `a` and `b`, and it speaks for `a → b`. -/
def Told (rx : String → Fin n → Bool) (hist : List (BK.Op (Fin n))) (a b : Fin n) : Prop :=
  BK.LastIs hist (.addForb b a) (.remForb b a) ∨
  (∃ p q, BK.LastIs hist (.addForbPat p q) (.remForbPat p q) ∧ rx p b = true ∧ rx q a = true) ∨
  (∃ ta tb, BK.InTier hist a ta ∧ BK.InTier hist b tb ∧ ta < tb) ∨
  BK.LastIs hist (.addReq a b) (.remReq a b) ∨
  ∃ p q, BK.LastIs hist (.addReqPat p q) (.remReqPat p q) ∧ rx p a = true ∧ rx q b = true

/-- What follows from the v-structures of `D` and the directions told, by the first three rules of Meek. -/
inductive Follows (D told : Fin n → Fin n → Prop) : Fin n → Fin n → Prop
  | vs {a b c} : UnshieldedCollider D a b c → Follows D told a b
  | told {a b} : Adj D a b → told a b → Follows D told a b
  | r1 {x a b} : Follows D told x a → Adj D a b → x ≠ b → ¬ Adj D x b → ¬ UnshieldedCollider D x a b → Follows D told a b
  | r2 {a x b} : Follows D told a x → Follows D told x b → Adj D a b → Follows D told a b
  | r3 {a b d e} : Adj D a b → Adj D a d → Adj D a e → Follows D told d b → Follows D told e b → d ≠ e → ¬ Adj D d e →
      ¬ UnshieldedCollider D d a e → Follows D told a b

/-- a graph that shows the v-structures and the directions told and is closed under R1–R3 shows all that follows -/
theorem PCCorrect.follows {D : Fin n → Fin n → Prop} (hac : Acyclic D) {H : GG n} (h : PCCorrect D H) {told : Fin n → Fin n → Prop}
    (ht : ∀ a b, Adj D a b → told a b → H.Arrow a b) {a b : Fin n} (hm : Follows D told a b) : H.Arrow a b := by
  have nul : ∀ {x y}, ¬ Adj D x y → H.g x y = .null := fun {x y} hn => by
    by_contra hc; exact hn ((h.skeleton x y).1 hc)
  have fin : ∀ {x y}, Adj D x y → D x y → (H.g x y = .tail ∧ H.g y x = .tail → H.Arrow x y) → H.Arrow x y := by
    intro x y ha hd hf
    rcases h.kinds x y ha with h1 | h1 | h1
    · exact h1
    · exact absurd (h.directed _ _ h1) (hac.asymm hd)
    · exact hf h1
  induction hm with
  | vs hv => exact (h.vstruct _ _ _ hv).1
  | told ha hk => exact ht _ _ ha hk
  | @r1 x a b h1 ha hne hna hnu ih =>
    have hD : D a b := ha.resolve_right fun hb => hnu ⟨hne, hna, h.directed _ _ ih, hb⟩
    exact fin ha hD fun h3 => absurd ⟨h3, Or.inl ⟨x, hne, nul hna, ih⟩⟩ (h.closed a b)
  | @r2 a x b h1 h2 ha ih1 ih2 =>
    have hD : D a b := ha.resolve_right fun hb => hac _ (((TransGen.single (h.directed _ _ ih1)).tail (h.directed _ _ ih2)).tail hb)
    exact fin ha hD fun h3 => absurd ⟨h3, Or.inr (Or.inl ⟨x, ih1, ih2⟩)⟩ (h.closed a b)
  | @r3 a b d e hab had hae h1 h2 hne hna hnu ih1 ih2 =>
    have hD : D a b := by
      refine hab.resolve_right fun hb => hnu ⟨hne, hna, ?_, ?_⟩
      · exact had.resolve_left fun hd => hac _ (((TransGen.single hd).tail (h.directed _ _ ih1)).tail hb)
      · exact hae.resolve_left fun he => hac _ (((TransGen.single he).tail (h.directed _ _ ih2)).tail hb)
    refine fin hab hD fun h3 => ?_
    exfalso
    rcases h.kinds a d had with k1 | k1 | k1
    · exact h.closed a b ⟨h3, Or.inr (Or.inl ⟨d, k1, ih1⟩)⟩
    · rcases h.kinds a e hae with k2 | k2 | k2
      · exact h.closed a b ⟨h3, Or.inr (Or.inl ⟨e, k2, ih2⟩)⟩
      · exact hnu ⟨hne, hna, h.directed _ _ k1, h.directed _ _ k2⟩
      · exact h.closed a e ⟨k2, Or.inl ⟨d, hne, nul hna, k1⟩⟩
    · rcases h.kinds a e hae with k2 | k2 | k2
      · exact h.closed a b ⟨h3, Or.inr (Or.inl ⟨e, k2, ih2⟩)⟩
      · exact h.closed a d ⟨k1, Or.inl ⟨e, hne.symm, nul fun h => hna h.symm, k2⟩⟩
      · exact h.closed a b ⟨h3, Or.inr (Or.inr ⟨d, e, hne, nul hna, k1, k2, ih1, ih2⟩)⟩

/-- What a result of PC with correct knowledge is: the adjacencies of `D`; directed at least where the v-structures and the knowledge direct by
Meek's first three rules, and only where all equivalent DAGs for which the knowledge is true agree; undirected elsewhere. -/
def KnowledgeResult (D : Fin n → Fin n → Prop) (rx : String → Fin n → Bool) (hist : List (BK.Op (Fin n))) (H : GG n) : Prop :=
  (∀ a b, H.g a b = .null ↔ ¬ Adj D a b) ∧ (∀ a b, Follows D (Told rx hist) a b → H.Arrow a b) ∧
  (∀ a b, H.Arrow a b → ∀ F, Acyclic F → MarkovEquiv D F → ToldTrue rx hist F → F a b) ∧
  ∀ a b, Adj D a b → H.Arrow a b ∨ H.Arrow b a ∨ (H.g a b = .tail ∧ H.g b a = .tail)

theorem toldTrue_iff (rx : String → Fin n → Bool) (hist : List (BK.Op (Fin n))) (F : Fin n → Fin n → Prop) (h : ToldTrue rx hist F) :
    (knowOf rx (BK.run hist)).TrueOf F := by
  obtain ⟨h1, h2, h3, h4, h5⟩ := h
  refine ⟨fun a b hf hab => ?_, fun a b hr => ?_⟩
  · rcases (BK.C22_is_forbidden rx hist a b).1 hf with h | ⟨p, q, h, hp⟩ | ⟨ta, tb, ha, hb, hlt⟩
    · exact h1 a b hab h
    · exact h2 a b hab p q h hp
    · exact absurd (h3 a b hab ta tb ha hb) (not_le.2 hlt)
  · rcases (BK.C22_is_required rx hist a b).1 hr with h | ⟨p, q, h, hp, hq⟩
    · exact h4 a b h
    · exact h5 a b p q h hp hq

/-- **C223** (d-separation oracle). -/
theorem C223_oracle (D : Fin n → Fin n → Prop) (hac : Acyclic D) (T : TestFn n P) (zero : P) (ho : DSepOracle D T.ind) (stable : Bool)
    (ucRule : Nat) (hr : ucRule ≤ 2) (prio : Option Nat) (rx : String → Fin n → Bool) (hist : List (BK.Op (Fin n))) (ht : ToldTrue rx hist D)
    (hban : (stable = true ∧ ucRule ≠ 0) ∨ ∀ a b, ¬ (Told rx hist a b ∧ Told rx hist b a)) :
    ∃ H, pcAlg T zero stable ucRule prio (knowOf rx (BK.run hist)) = some H ∧ KnowledgeResult D rx hist H := by
  have hforb : ∀ a b, (knowOf rx (BK.run hist)).forb a b = true → Told rx hist b a := by
    intro a b h
    rcases (BK.C22_is_forbidden rx hist a b).1 h with h | h | ⟨ta, tb, ha, hb, hlt⟩
    · exact Or.inl h
    · exact Or.inr (Or.inl h)
    · exact Or.inr (Or.inr (Or.inl ⟨tb, ta, hb, ha, hlt⟩))
  have hk := toldTrue_iff rx hist D ht
  have hban' : (stable = true ∧ ucRule ≠ 0) ∨
      ∀ a b, ¬ ((knowOf rx (BK.run hist)).forb a b = true ∧ (knowOf rx (BK.run hist)).forb b a = true) :=
    hban.imp_right fun h a b hc => h a b ⟨hforb _ _ hc.2, hforb _ _ hc.1⟩
  obtain ⟨H, e, hc⟩ := pc_correct_class D hac T zero ho stable ucRule hr prio _ hk hban'
  have hDH := hc D hac ⟨fun _ _ => Iff.rfl, fun _ _ _ => Iff.rfl⟩ hk
  refine ⟨H, e, fun a b => by rw [← hDH.skeleton]; simp, fun a b => hDH.follows hac fun a b ha hab => ?_,
    fun a b h F hF he hT => (hc F hF he (toldTrue_iff rx hist F hT)).directed a b h, hDH.kinds⟩
  have hkn : (knowOf rx (BK.run hist)).forb b a = true ∨ (knowOf rx (BK.run hist)).req a b = true := by
    rcases hab with h | h | ⟨ta, tb, h1, h2, h3⟩ | h | h
    · exact Or.inl ((BK.C22_is_forbidden rx hist b a).2 (Or.inl h))
    · exact Or.inl ((BK.C22_is_forbidden rx hist b a).2 (Or.inr (Or.inl h)))
    · exact Or.inl ((BK.C22_is_forbidden rx hist b a).2 (Or.inr (Or.inr ⟨tb, ta, h2, h1, h3⟩)))
    · exact Or.inr ((BK.C22_is_required rx hist a b).2 (Or.inl h))
    · exact Or.inr ((BK.C22_is_required rx hist a b).2 (Or.inr h))
  have hD : D a b := by
    rcases hkn with h | h
    · exact ha.resolve_right (hk.1 b a h)
    · exact hk.2 a b h
  rcases hDH.kinds a b ha with h1 | h1 | ⟨h1, h2⟩
  · exact h1
  · exact absurd (hDH.directed _ _ h1) (hac.asymm hD)
  · exfalso
    rcases hkn with h | h
    · have := (pc_uses_knowledge D hac T zero ho stable ucRule prio _ hk hban' e h2 h1).1
      rw [h] at this; cases this
    · have := (pc_uses_knowledge D hac T zero ho stable ucRule prio _ hk hban' e h1 h2).2
      rw [h] at this; cases this

/-- **C223** (Fisher's z). -/
theorem C223_fisherz {D : Fin n → Fin n → Prop} (hac : Acyclic D) {N : Nat} {data : Fin N → Nat → ℝ} (hm : LinearModel D (FisherZ.cols n data))
    (hf : FisherZ.FaithfulData D (FisherZ.cols n data)) {Φ : ℝ → ℝ} (h0 : Φ 0 = 1 / 2) (hΦ : StrictMono Φ) (eps : ℝ) (hN : n + 2 ≤ N)
    (rx : String → Fin n → Bool) (hist : List (BK.Op (Fin n))) (ht : ToldTrue rx hist D) :
    ∃ α0 < 1, ∀ α, α0 ≤ α → α < 1 → ∀ (stable : Bool) (ucRule : Nat), ucRule ≤ 2 → ∀ prio : Option Nat,
      ((stable = true ∧ ucRule ≠ 0) ∨ ∀ a b, ¬ (Told rx hist a b ∧ Told rx hist b a)) →
      ∃ H, pcAlg (FisherZ.pcTest n Φ eps data α) 0 stable ucRule prio (knowOf rx (BK.run hist)) = some H ∧ KnowledgeResult D rx hist H := by
  obtain ⟨α0, h1, h2⟩ := FisherZ.fisherz_oracle_all hac hm hf h0 hΦ eps hN
  refine ⟨α0, h1, fun α ha hb stable ucRule hr prio hban => C223_oracle D hac _ 0 (fun x y S hxy _ hx hy => ?_) stable ucRule hr prio rx hist ht hban⟩
  rw [← h2 α ha hb x y S hxy hx hy]
  unfold TestFn.ind
  rw [decide_eq_true_iff]
  rfl

/-- **C223** (chi-square and G-square). -/
theorem C223_chi {D : Fin n → Fin n → Prop} (hac : Acyclic D) {N : Nat} {sf : ℝ → Int → ℝ} (hsf : Chi.Survival sf) (gsq : Bool)
    {data : Fin N → Fin n → Int} (hM : Discrete.Markov D data) (hf : Chi.FaithfulTable D data) (hN : 0 < N) (hsize : Chi.cells data < 2 ^ 63)
    (rx : String → Fin n → Bool) (hist : List (BK.Op (Fin n))) (ht : ToldTrue rx hist D) :
    ∃ α0 < 1, ∀ α, α0 ≤ α → α < 1 → ∀ (stable : Bool) (ucRule : Nat), ucRule ≤ 2 → ∀ prio : Option Nat,
      ((stable = true ∧ ucRule ≠ 0) ∨ ∀ a b, ¬ (Told rx hist a b ∧ Told rx hist b a)) →
      ∃ H, pcAlg (Chi.chiQuery sf gsq data α) 0 stable ucRule prio (knowOf rx (BK.run hist)) = some H ∧ KnowledgeResult D rx hist H := by
  obtain ⟨α0, h1, h2⟩ := Chi.C216_chi_oracle hac Function.injective_id hsf gsq hM
    (fun x y S a b c d => by simpa using hf x y S a b c (by simpa using d)) hN hsize
  exact ⟨α0, h1, fun α ha hb stable ucRule hr prio hban => C223_oracle D hac _ 0 (h2 α ha hb).dsep stable ucRule hr prio rx hist ht hban⟩

/-- The chain `0 → 1 → 2`, told that `0 → 1` is required and (then revoked) that it is forbidden: PC returns `0 → 1 → 2`. -/
theorem C223_example (stable : Bool) (ucRule : Nat) (hr : ucRule ≤ 2) (prio : Option Nat) (rx : String → Fin 3 → Bool) :
    ToldTrue rx [.addForb 0 1, .addReq 0 1, .remForb 0 1] chainD ∧
    ∃ H, pcAlg chainT 0 stable ucRule prio (knowOf rx (BK.run [.addForb 0 1, .addReq 0 1, .remForb 0 1])) = some H ∧ H.Arrow 0 1 ∧ H.Arrow 1 2 := by
  obtain ⟨hist, hh⟩ : ∃ hist : List (BK.Op (Fin 3)), hist = [.addForb 0 1, .addReq 0 1, .remForb 0 1] := ⟨_, rfl⟩
  have hf : ∀ a b, BK.isForbidden rx (BK.run hist) a b = false := by
    intro a b; rw [hh]; simp [BK.isForbidden, BK.run, BK.exec, BK.setAdd, BK.setDel, BK.inWhichTier, BK.init]
  have hq : ∀ a b, BK.isRequired rx (BK.run hist) a b = true → a = 0 ∧ b = 1 := by
    intro a b; rw [hh]; simp [BK.isRequired, BK.run, BK.exec, BK.setAdd, BK.setDel, BK.init]; tauto
  have nf : ∀ a b, ¬ (BK.LastIs hist (.addForb a b) (.remForb a b) ∨
      (∃ p q, BK.LastIs hist (.addForbPat p q) (.remForbPat p q) ∧ rx p a = true ∧ rx q b = true) ∨
      ∃ ta tb, BK.InTier hist a ta ∧ BK.InTier hist b tb ∧ tb < ta) := by
    intro a b h
    have := (BK.C22_is_forbidden rx hist a b).2 h
    rw [hf] at this; cases this
  have hreq : ∀ a b, (BK.LastIs hist (.addReq a b) (.remReq a b) ∨
      ∃ p q, BK.LastIs hist (.addReqPat p q) (.remReqPat p q) ∧ rx p a = true ∧ rx q b = true) → a = 0 ∧ b = 1 := fun a b h =>
    hq a b ((BK.C22_is_required rx hist a b).2 h)
  have hD01 : chainD 0 1 := by unfold chainD; decide
  have hT : ToldTrue rx hist chainD := by
    refine ⟨fun a b _ h => nf a b (Or.inl h), fun a b _ p q h hp => nf a b (Or.inr (Or.inl ⟨p, q, h, hp⟩)), fun a b _ ta tb ha hb => ?_,
      fun a b h => ?_, fun a b p q h hp hq => ?_⟩
    · by_contra hc
      exact nf a b (Or.inr (Or.inr ⟨ta, tb, ha, hb, not_le.1 hc⟩))
    · obtain ⟨rfl, rfl⟩ := hreq a b (Or.inl h); exact hD01
    · obtain ⟨rfl, rfl⟩ := hreq a b (Or.inr ⟨p, q, h, hp, hq⟩); exact hD01
  have hto : ∀ a b, Told rx hist a b → a = 0 ∧ b = 1 := by
    rintro a b (h | h | ⟨ta, tb, h1, h2, h3⟩ | h | h)
    · exact absurd (Or.inl h) (nf b a)
    · exact absurd (Or.inr (Or.inl h)) (nf b a)
    · exact absurd (Or.inr (Or.inr ⟨tb, ta, h2, h1, h3⟩)) (nf b a)
    · exact hreq a b (Or.inl h)
    · exact hreq a b (Or.inr h)
  have t01 : Told rx hist 0 1 := by
    refine Or.inr (Or.inr (Or.inr (Or.inl ⟨[.addForb 0 1], [.remForb 0 1], by rw [hh]; rfl, by simp⟩)))
  rw [← hh]
  obtain ⟨H, e, -, h, -⟩ := C223_oracle chainD chainD_acyclic chainT 0 chainT_oracle stable ucRule hr prio rx hist hT
    (Or.inr fun a b hc => by
      obtain ⟨h1, -⟩ := hto _ _ hc.1
      obtain ⟨-, h2⟩ := hto _ _ hc.2
      exact absurd (h1.symm.trans h2) (by decide))
  have f01 : Follows chainD (Told rx hist) 0 1 := .told (Or.inl hD01) t01
  refine ⟨hT, H, e, h 0 1 f01, h 1 2 (.r1 f01 (Or.inl (by unfold chainD; decide)) (by decide) (by unfold Adj chainD; decide)
    (by unfold UnshieldedCollider Collider Adj chainD; decide))⟩

end CL
