import Verif.Spec.Consistent
import Verif.Proofs.MeekChickering
import Verif.Props.GesMain
import Verif.Props.ExactSearch

/-!
# C79: score-based search with a consistent score finds the true equivalence class
-/
open Spec Relation
namespace Spec
variable {n : Nat} {V : Type}

/-- An acyclic relation on a finite set has an injective, bounded rank. -/
theorem Acyclic.exists_inj_rank [Finite V] {H : V → V → Prop} (hH : Acyclic H) :
    ∃ (ρ : V → Nat) (N : Nat), (∀ a b, ρ a = ρ b → a = b) ∧ (∀ a b, H a b → ρ a < ρ b) ∧ ∀ v, ρ v < N := by
  obtain ⟨r, hr⟩ := hH.exists_rank
  obtain ⟨n, ⟨e⟩⟩ := Finite.exists_equiv_fin V
  have hlt : ∀ {a b : V}, r a < r b → r a * n + e a < r b * n + e b := fun {a b} hab => by
    have h1 := (e a).2
    have h2 : (r a + 1) * n ≤ r b * n := Nat.mul_le_mul_right n hab
    rw [Nat.add_mul] at h2
    omega
  obtain ⟨M, hM⟩ := (Set.finite_range fun v => r v * n + e v).bddAbove
  refine ⟨fun v => r v * n + e v, M + 1, fun a b hab => ?_, fun a b hab => hlt (hr _ _ hab), fun v => Nat.lt_succ_of_le (hM ⟨v, rfl⟩)⟩
  have : r a = r b := by
    dsimp only at hab
    rcases Nat.lt_trichotomy (r a) (r b) with h' | h' | h'
    · have := hlt h'; omega
    · exact h'
    · have := hlt h'; omega
  simp only [this] at hab
  exact e.injective (Fin.ext (by omega))

end Spec

namespace CL.Ges
variable {n : Nat} {K : Type} [AddCommGroup K] [LinearOrder K] [IsOrderedAddMonoid K] {sc : Fin n → Finset (Fin n) → K} {D : Fin n → Fin n → Prop}

open Classical in
/-- The parents of a node. -/
noncomputable def pars (F : Fin n → Fin n → Prop) (v : Fin n) : Finset (Fin n) := Finset.univ.filter fun w => F w v

theorem mem_pars {F : Fin n → Fin n → Prop} {v w : Fin n} : w ∈ pars F v ↔ F w v := by simp [pars]

theorem coe_pars (F : Fin n → Fin n → Prop) (v : Fin n) : (↑(pars F v) : Set (Fin n)) = {p | F p v} := by
  ext w
  simp [mem_pars]

/-- The score of two graphs that differ in the parents of one node. -/
theorem dagScore_lt {F F' : Fin n → Fin n → Prop} {v : Fin n} (h : ∀ w, w ≠ v → pars F w = pars F' w) :
    dagScore sc F < dagScore sc F' ↔ sc v (pars F v) < sc v (pars F' v) := by
  have e1 : dagScore sc F = ∑ w, sc w (pars F w) := rfl
  have e2 : dagScore sc F' = ∑ w, sc w (pars F' w) := rfl
  rw [e1, e2, ← Finset.add_sum_erase _ _ (Finset.mem_univ v), ← Finset.add_sum_erase Finset.univ (fun w => sc w (pars F' w)) (Finset.mem_univ v)]
  have : ∑ w ∈ Finset.univ.erase v, sc w (pars F w) = ∑ w ∈ Finset.univ.erase v, sc w (pars F' w) :=
    Finset.sum_congr rfl fun w hw => by rw [h w (Finset.ne_of_mem_erase hw)]
  rw [this, add_lt_add_iff_right]

theorem pars_add {F : Fin n → Fin n → Prop} {x y : Fin n} : pars (addArc F x y) y = insert x (pars F y) := by
  ext w
  simp only [mem_pars, addArc, Finset.mem_insert, and_true]
  exact or_comm

theorem pars_add_ne {F : Fin n → Fin n → Prop} {x y w : Fin n} (h : w ≠ y) : pars (addArc F x y) w = pars F w := by
  ext v
  simp [mem_pars, addArc, h]

theorem pars_del {F : Fin n → Fin n → Prop} {x y : Fin n} (h : F x y) : insert x (pars (delArc F x y) y) = pars F y := by
  ext w
  simp only [mem_pars, delArc, Finset.mem_insert, and_true]
  constructor
  · rintro (rfl | h')
    · exact h
    · exact h'.1
  · intro h'
    by_cases hw : w = x
    · exact Or.inl hw
    · exact Or.inr ⟨h', hw⟩

theorem pars_del_ne {F : Fin n → Fin n → Prop} {x y w : Fin n} (h : w ≠ y) : pars (delArc F x y) w = pars F w := by
  ext v
  simp [mem_pars, delArc, h]

theorem del_score (hc : LocallyConsistent sc D) {F : Fin n → Fin n → Prop} (hF : Acyclic F) {x y : Fin n} (hxy : F x y) :
    (DSep D {p | delArc F x y p y} y x → dagScore sc (delArc F x y) < dagScore sc F) ∧
    (¬ DSep D {p | delArc F x y p y} y x → dagScore sc F < dagScore sc (delArc F x y)) := by
  have hne : y ≠ x := fun e => hF.irrefl y (e ▸ hxy)
  have h := hc y x (pars (delArc F x y) y) hne (fun h => hF.irrefl y (mem_pars.1 h).1) (fun h => (mem_pars.1 h).2 ⟨rfl, rfl⟩)
  rw [pars_del hxy, coe_pars] at h
  rw [dagScore_lt (v := y) fun w hw => pars_del_ne hw, dagScore_lt (v := y) fun w hw => (pars_del_ne hw).symm]
  exact ⟨h.2, h.1⟩

/-- A DAG that no addition improves is an independence map. -/
theorem imap_of_forward (hD : Acyclic D) (hc : LocallyConsistent sc D) {F : Fin n → Fin n → Prop} (hF : Acyclic F)
    (hopt : ∀ i j, i ≠ j → ¬ Adj F i j → Acyclic (addArc F i j) → dagScore sc F ≤ dagScore sc (addArc F i j)) : IMap D F := by
  obtain ⟨ρ, N, hinj, hρ, hN⟩ := hF.exists_inj_rank
  refine imap_of_local hD hinj hρ hN fun i j hij hn => ?_
  by_contra hcon
  have hne : j ≠ i := fun e => by subst e; exact absurd hij (lt_irrefl _)
  have hna : ¬ Adj F j i := by
    rintro (h | h)
    · exact hn h
    · exact absurd (hρ _ _ h) (by omega)
  have hac : Acyclic (addArc F j i) := acyclic_of_rank (ρ := ρ) (by
    rintro a b (h | ⟨rfl, rfl⟩)
    · exact hρ _ _ h
    · exact hij)
  have h := (hc i j (pars F i) hne.symm (fun h => hF.irrefl i (mem_pars.1 h)) (fun h => hn (mem_pars.1 h))).1
  rw [coe_pars] at h
  refine absurd (hopt j i hne hna hac) (not_le.2 ?_)
  rw [dagScore_lt (v := i) fun w hw => pars_add_ne hw, pars_add]
  exact h hcon

/-- An improving deletion keeps an independence map. -/
theorem imap_of_delete (hD : Acyclic D) (hc : LocallyConsistent sc D) {F : Fin n → Fin n → Prop} (hF : Acyclic F) (hI : IMap D F) {x y : Fin n} (hxy : F x y)
    (himp : dagScore sc (delArc F x y) < dagScore sc F) : IMap D (delArc F x y) := by
  have hs : DSep D {p | delArc F x y p y} y x := by
    by_contra hcon
    exact lt_asymm himp ((del_score hc hF hxy).2 hcon)
  obtain ⟨ρ, N, hinj, hρ, hN⟩ := hF.exists_inj_rank
  refine imap_of_local hD hinj (fun a b h => hρ _ _ h.1) hN fun i j hij hn => ?_
  by_cases hi : i = y
  · subst hi
    by_cases hj : j = x
    · subst hj
      exact hs
    · have hn' : ¬ F j i := fun h => hn ⟨h, fun e => hj e.1⟩
      have h1 := hI.local hρ hij hn'
      have he : {p | F p i} = {p | delArc F x i p i} ∪ {x} := by
        ext p
        simp only [Set.mem_setOf_eq, delArc, Set.mem_union, Set.mem_singleton_iff, and_true]
        constructor
        · intro h
          by_cases hp : p = x
          · exact Or.inr hp
          · exact Or.inl ⟨h, hp⟩
        · rintro (h | rfl)
          · exact h.1
          · exact hxy
      rw [he] at h1
      exact dSep_contract h1 (by rintro _ rfl; exact hs)
  · have he : {p | delArc F x y p i} = {p | F p i} := by
      ext p
      simp [delArc, hi]
    rw [he]
    exact hI.local hρ hij fun h => hn ⟨h, fun e => hi e.2⟩

/-- An independence map that is not equivalent to `D` has an equivalent DAG with an improving deletion. -/
theorem drop_improves (hD : Acyclic D) (hc : LocallyConsistent sc D) {F : Fin n → Fin n → Prop} (hF : Acyclic F) (hI : IMap D F) :
    MarkovEquiv D F ∨ ∃ F' x y, Acyclic F' ∧ MarkovEquiv F' F ∧ F' x y ∧ dagScore sc (delArc F' x y) < dagScore sc F' := by
  rcases imap_equiv_or_drop hD hF hI with h | ⟨F', x, y, h1, h2, h3, h4⟩
  · exact Or.inl h
  · refine Or.inr ⟨F', x, y, h1, h2, h3, (del_score hc h1 h3).1 ?_⟩
    obtain ⟨ρ, N, hinj, hρ, hN⟩ := h1.exists_inj_rank
    exact IMap.local (H := delArc F' x y) h4 (fun a b h => hρ _ _ h.1) (hρ _ _ h3) fun h => h.2 ⟨rfl, rfl⟩

/-- **C79, GES.** For every DAG `D` and every locally consistent score, GES (with a parent limit that does not bind) returns the essential graph of
`D`. -/
theorem C79_ges_consistent (hD : Acyclic D) (hc : LocallyConsistent sc D) {big : K} (hbig : 0 ≤ big) {maxP : Nat} (hmax : n ≤ maxP) :
    ∃ R, (∀ fuel, n * n + 1 ≤ fuel → ges sc big maxP fuel = some R) ∧ Essential R.G D := by
  obtain ⟨R, hR, -⟩ := C36_ges_terminates sc hbig maxP
  refine ⟨R, hR, ?_⟩
  have hR' := hR (n * n + 1) le_rfl
  obtain ⟨P1, hrun, ⟨D1, hD1, -⟩, hopt⟩ := C36_forward_optimal hbig le_rfl hR'
  have hI1 : IMap D D1 := imap_of_forward hD hc hD1.acyclic fun i j hij hna hac =>
    hopt D1 i j hD1 hij hna hac ((Finset.card_le_univ _).trans (by simpa using hmax))
  -- the backward phase keeps independence maps
  have key : ∀ {P Q : GG n} {ds : List (Desc n)}, Greedy (dagScore sc) ValidDelete (deleteDelta sc) deleteCh P ds Q →
      (∀ F, Essential P F → IMap D F) → ∀ F, Essential Q F → IMap D F := by
    intro P Q ds h
    induction h with
    | stop _ => exact id
    | @step P H Q d ds E hV hmin hneg hE hH hsc _ ih =>
      intro hP
      refine ih fun F hF => ?_
      have hEI := hP E hE
      have hlt : dagScore sc (delArc E d.1 d.2.1) < dagScore sc E := by
        rw [show delArc E d.1 d.2.1 = deleteCh E d from rfl, hsc]
        exact add_lt_of_neg_right _ hneg
      have hxy : E d.1 d.2.1 := by
        by_contra hcon
        have : delArc E d.1 d.2.1 = E := by
          funext a b
          refine propext ⟨fun h => h.1, fun h => ⟨h, ?_⟩⟩
          rintro ⟨rfl, rfl⟩
          exact hcon h
        rw [this] at hlt
        exact lt_irrefl _ hlt
      have hI' : IMap D (delArc E d.1 d.2.1) := imap_of_delete hD hc hE.acyclic hEI hxy hlt
      have he := hH.equiv hF
      intro Z a b hab ha hb hs
      exact hI' Z a b hab ha hb (((markovEquiv_iff_sameDSep hH.acyclic hF.acyclic).1 he Z a b hab ha hb).2 hs)
  have hP1 : ∀ F, Essential P1 F → IMap D F := by
    intro F hF Z a b hab ha hb hs
    exact hI1 Z a b hab ha hb (((markovEquiv_iff_sameDSep hD1.acyclic hF.acyclic).1 (hD1.equiv hF) Z a b hab ha hb).2 hs)
  obtain ⟨R', P0, P1', D1', D2, h1, -, -, h4, -⟩ := ges_run sc hbig maxP
  have hRR : R = R' := by
    have := h1 (n * n + 1) le_rfl
    rw [hR (n * n + 1) le_rfl] at this
    exact Option.some.inj this
  subst hRR
  have hI2 := key hrun hP1 D2 h4
  rcases drop_improves hD hc h4.acyclic hI2 with h | ⟨F, x, y, g1, g2, g3, g4⟩
  · exact h4.congr hD ⟨fun a b => (h.1 a b).symm, fun a b c => (h.2 a b c).symm⟩
  · exfalso
    have hF : Essential R.G F := h4.congr g1 ⟨fun a b => (g2.1 a b).symm, fun a b c => (g2.2 a b c).symm⟩
    exact absurd (C36_backward_optimal hbig le_rfl hR' hF g3) (not_le.2 g4)

end CL.Ges

namespace CL.Exact
open CL.Ges
variable {d : Nat} {K : Type} [AddCommGroup K] [LinearOrder K] [IsOrderedAddMonoid K] {score : Fin d → Finset (Fin d) → K} {D : Fin d → Fin d → Prop}

/-- Without restrictions every DAG is admissible. -/
theorem admissible_any {maxPar : Nat} (hmax : d ≤ maxPar) {F : Fin d → Fin d → Prop} (hF : Acyclic F) :
    AdmissibleDag (fun j i => decide (j ≠ i)) (fun _ _ => false) maxPar (pars F) := by
  refine ⟨fun i j hj => ?_, fun i j h => by simp at h, fun i => (Finset.card_le_univ _).trans (by simpa using hmax), ?_⟩
  · rw [decide_eq_true_eq]
    rintro rfl
    exact hF.irrefl _ (mem_pars.1 hj)
  · have : (fun j i => j ∈ pars F i) = F := by
      funext j i
      exact propext mem_pars
    rw [this]
    exact hF

/-- A DAG of least score is Markov equivalent to `D`. -/
theorem optimal_equiv (hD : Acyclic D) (hc : LocallyConsistent score D) (hse : ScoreEquiv score) {maxPar : Nat} (hmax : d ≤ maxPar)
    {pa : Fin d → Finset (Fin d)} (hopt : OptimalDag score (fun j i => decide (j ≠ i)) (fun _ _ => false) maxPar pa) :
    MarkovEquiv D fun j i => j ∈ pa i := by
  have hpa : pars (fun j i => j ∈ pa i) = pa := by
    funext i
    ext j
    exact mem_pars
  have hF := hopt.1.acyclic
  have htot : ∀ F, Acyclic F → dagScore score (fun j i => j ∈ pa i) ≤ dagScore score F := by
    intro F hF
    have h := hopt.2 _ (admissible_any hmax hF)
    have e1 : dagScore score (fun j i => j ∈ pa i) = totalScore score (pars fun j i => j ∈ pa i) := rfl
    rw [e1, hpa]
    exact h
  have hI : IMap D fun j i => j ∈ pa i := imap_of_forward hD hc hF fun i j _ _ hac => htot _ hac
  rcases drop_improves hD hc hF hI with h | ⟨F, x, y, g1, g2, -, g4⟩
  · exact h
  · exfalso
    rw [hse F _ g1 hF g2] at g4
    exact absurd (htot _ (delArc_acyclic g1)) (not_le.2 g4)

theorem exists_admissible {maxPar : Nat} (hmax : d ≤ maxPar) : ∃ pa, AdmissibleDag (fun j i : Fin d => decide (j ≠ i)) (fun _ _ => false) maxPar pa :=
  ⟨_, admissible_any hmax (F := noEdge) noEdge_acyclic⟩

/-- **C79, exact search by dynamic programming.** -/
theorem C79_dp_consistent (hD : Acyclic D) (hc : LocallyConsistent score D) (hse : ScoreEquiv score) (sp : ShortestPath d K)
    {order : Fin d → List (Fin d)} (ho : Lists (fun j i => decide (j ≠ i)) order) {maxPar : Nat} (hmax : d ≤ maxPar) (ext : Bool) :
    ∃ s, dp sp (parentGraphs score maxPar order fun _ _ => false) ext = some s ∧ MarkovEquiv D fun j i => toMatrix s j i = true := by
  obtain ⟨s, h1, h2⟩ := C32_dp_optimal sp ho score maxPar (exists_admissible hmax) ext
  refine ⟨s, h1, ?_⟩
  have := optimal_equiv hD hc hse hmax h2
  have he : (fun j i => j ∈ parentsOf (toMatrix s) i) = fun j i => toMatrix s j i = true := by
    funext j i
    simp [parentsOf]
  rwa [he] at this

/-- **C79, exact search by A\*.** -/
theorem C79_astar_consistent (hD : Acyclic D) (hc : LocallyConsistent score D) (hse : ScoreEquiv score)
    (Q : PQ.HeapQ (Finset (Fin d)) (Structs d) (WithTop K)) {order : Fin d → List (Fin d)} (ho : Lists (fun j i => decide (j ≠ i)) order)
    {maxPar : Nat} (hmax : d ≤ maxPar) (ext : Bool) :
    let pgs := parentGraphs score maxPar order fun _ _ => false
    ∃ f0, ∀ f, f0 ≤ f → ∃ s, astar Q pgs ext (simpleH pgs) f = some s ∧ MarkovEquiv D fun j i => toMatrix s j i = true := by
  intro pgs
  obtain ⟨f0, h0⟩ := C33_astar_optimal Q ho score maxPar (exists_admissible hmax) ext
  refine ⟨f0, fun f hf => ?_⟩
  obtain ⟨s, h1, h2⟩ := h0 f hf
  refine ⟨s, h1, ?_⟩
  have := optimal_equiv hD hc hse hmax h2
  have he : (fun j i => j ∈ parentsOf (toMatrix s) i) = fun j i => toMatrix s j i = true := by
    funext j i
    simp [parentsOf]
  rwa [he] at this

end CL.Exact
