import Verif.Proofs.GstConsistent
import Verif.Props.BicConsistent
import Verif.Proofs.DSepDecide

/-!
# C81: BOSS and GRaSP with a locally consistent score
-/
open Spec Relation CL.Ges
namespace CL
namespace Perm
variable {p : Nat} {K : Type} [AddCommGroup K] [LinearOrder K] [IsOrderedAddMonoid K] {sc : Fin p → Finset (Fin p) → K} {D : Fin p → Fin p → Prop}

/-- `F` is a minimal independence map of `D`: every d-separation of `F` holds in `D`, and this is lost when any edge of `F` is deleted. -/
def MinimalIMap (D F : Fin p → Fin p → Prop) : Prop := IMap D F ∧ ∀ a b, F a b → ¬ IMap D fun x y => F x y ∧ ¬ (x = a ∧ y = b)

/-- **C81, one grow-shrink tree.** With a locally consistent score the parents a trace selects from the prefix are exactly the variables of the prefix
that depend on the target given the rest of the prefix. -/
theorem C81_trace (hD : Acyclic D) (hc : LocallyConsistent (fun v S => - sc v S) D) {v : Fin p} {pre : List (Fin p)} (hv : v ∉ pre) (a : Fin p) :
    a ∈ trParents sc v pre ↔ a ∈ pre ∧ ¬ DSep D {x | x ∈ pre ∧ x ≠ a} v a := trParents_consistent hD hc hv a

theorem finalParents_consistent (hD : Acyclic D) (hc : LocallyConsistent (fun v S => - sc v S) D) {order : List (Fin p)}
    (hp : order.Perm (List.finRange p)) (a b : Fin p) : a ∈ finalParents sc order b ↔
      order.idxOf a < order.idxOf b ∧ ¬ DSep D {x | order.idxOf x < order.idxOf b ∧ x ≠ a} b a := by
  have hm : ∀ x, x ∈ order := fun x => hp.mem_iff.2 (List.mem_finRange x)
  have ht : ∀ x, x ∈ order.take (order.idxOf b) ↔ order.idxOf x < order.idxOf b := fun x => List.mem_take_iff_idxOf_lt (hm x)
  unfold finalParents
  rw [C81_trace hD hc (fun h => lt_irrefl _ ((ht b).1 h)), ht]
  simp only [ht]

/-- The parents that an order determines form a minimal independence map. -/
theorem minimal_of_order (hD : Acyclic D) {ρ : Fin p → Nat} (hinj : ∀ a b, ρ a = ρ b → a = b) {N : Nat} (hN : ∀ v, ρ v < N) {F : Fin p → Fin p → Prop}
    (hF : ∀ a b, F a b ↔ ρ a < ρ b ∧ ¬ DSep D {x | ρ x < ρ b ∧ x ≠ a} b a)
    (hsep : ∀ i j, ρ j < ρ i → ¬ F j i → DSep D {x | F x i} i j) : MinimalIMap D F := by
  refine ⟨imap_of_local hD hinj (fun a b h => ((hF a b).1 h).1) hN hsep, fun a b hab hI => ?_⟩
  obtain ⟨h1, h2⟩ := (hF a b).1 hab
  refine h2 ?_
  -- in the smaller map all predecessors are separated by the remaining parents
  have hloc : ∀ c, ρ c < ρ b → ¬ (F c b ∧ ¬ (c = a ∧ b = b)) → DSep D {x | F x b ∧ ¬ (x = a ∧ b = b)} b c := fun c hcb hn =>
    hI.local (H := fun x y => F x y ∧ ¬ (x = a ∧ y = b)) (fun x y h => ((hF x y).1 h.1).1) hcb hn
  have he : {x | ρ x < ρ b ∧ x ≠ a} = {x | F x b ∧ ¬ (x = a ∧ b = b)} ∪ {x | ρ x < ρ b ∧ x ≠ a ∧ ¬ F x b} := by
    ext x
    simp only [Set.mem_setOf_eq, Set.mem_union, and_true]
    constructor
    · rintro ⟨g1, g2⟩
      by_cases g3 : F x b
      · exact Or.inl ⟨g3, g2⟩
      · exact Or.inr ⟨g1, g2, g3⟩
    · rintro (⟨g1, g2⟩ | ⟨g1, g2, -⟩)
      · exact ⟨((hF x b).1 g1).1, g2⟩
      · exact ⟨g1, g2⟩
  rw [he]
  refine dSep_union hD (hloc a h1 (by simp)) (fun c hc => hloc c hc.1 fun h => hc.2.2 h.1) ?_ ?_
  · rintro (h | h)
    · exact lt_irrefl _ ((hF b b).1 h.1).1
    · exact lt_irrefl _ h.1
  · rintro (h | h)
    · exact h.2 ⟨rfl, rfl⟩
    · exact h.2.1 rfl

theorem finalParents_minimal (hD : Acyclic D) (hc : LocallyConsistent (fun v S => - sc v S) D) {order : List (Fin p)}
    (hp : order.Perm (List.finRange p)) : MinimalIMap D fun a b => a ∈ finalParents sc order b := by
  have hm : ∀ x, x ∈ order := fun x => hp.mem_iff.2 (List.mem_finRange x)
  refine minimal_of_order hD (ρ := order.idxOf) (fun a b h => (List.idxOf_inj (hm a)).1 h) (N := order.length) (fun v => List.idxOf_lt_length_iff.2 (hm v))
    (finalParents_consistent hD hc hp) fun i j hij hn => ?_
  have := trParents_sep (sc := sc) hc (v := i) (pre := order.take (order.idxOf i)) j ((List.mem_take_iff_idxOf_lt (hm j)).2 hij)
    (fun e => by rw [e] at hij; exact lt_irrefl _ hij) (by simpa [finalParents] using hn)
  simpa [finalParents] using this

/-- **C81, BOSS.** For every DAG `D` and every score that is locally consistent for it, every tolerance and every schedule of the shuffles: BOSS ends, and
the DAG whose CPDAG it returns is a minimal independence map of `D`, namely the one its final order determines. -/
theorem C81_boss (hD : Acyclic D) (hc : LocallyConsistent (fun v S => - sc v S) D) {eps : K} (he : 0 < eps) (sched : Nat → List (Fin p)) :
    ∃ f0, ∀ fuel cfuel, f0 ≤ fuel → p * p + p < cfuel → ∃ order H F, boss sc eps sched fuel cfuel = some (order, .ok H) ∧
      order.Perm (List.finRange p) ∧ Acyclic F ∧ MinimalIMap D F ∧
      (∀ a b, F a b ↔ order.idxOf a < order.idxOf b ∧ ¬ DSep D {x | order.idxOf x < order.idxOf b ∧ x ≠ a} b a) ∧
      ∀ a b, (H.g a b = .null ↔ ¬ Adj F a b) ∧ (H.Arrow a b ↔ Compelled F a b) := by
  obtain ⟨f0, h0⟩ := C38_boss sc he sched
  refine ⟨f0, fun fuel cfuel hf hcf => ?_⟩
  obtain ⟨order, H, h1, h2, -, -, -, h3, h4⟩ := h0 fuel cfuel hf hcf
  exact ⟨order, H, _, h1, h2, h3, finalParents_minimal hD hc h2, finalParents_consistent hD hc h2, h4⟩

/-- **C81, GRaSP.** Whatever GRaSP tries and in whatever order, when it ends the DAG whose CPDAG it returns is a minimal independence map of `D`. -/
theorem C81_grasp (hD : Acyclic D) (hc : LocallyConsistent (fun v S => - sc v S) D) {eps : K} (he : 0 ≤ eps) {depth : Nat} {l : List (Fin p)}
    (hl : l.Perm (List.finRange p)) {o : Order p K} (hr : GraspRun sc eps depth (graspInit sc l) o) :
    MinimalIMap D (fun a b => a ∈ o.parents b) ∧
    (∀ a b, a ∈ o.parents b ↔ o.order.idxOf a < o.order.idxOf b ∧ ¬ DSep D {x | o.order.idxOf x < o.order.idxOf b ∧ x ≠ a} b a) ∧
    ∃ H, (∀ fuel, p * p + p < fuel → (parentsGraph o.parents).dag2cpdag fuel = .ok H) ∧
      ∀ a b, (H.g a b = .null ↔ ¬ Adj (fun a b => a ∈ o.parents b) a b) ∧
        (H.Arrow a b ↔ Compelled (fun a b => a ∈ o.parents b) a b) := by
  have h := run_ok he hr (ok_init sc hl)
  have hmem : ∀ a b, a ∈ o.parents b ↔ a ∈ finalParents sc o.order b := fun a b => (h.parents b).mem_iff
  have hE : (fun a b => a ∈ o.parents b) = fun a b => a ∈ finalParents sc o.order b := by
    funext a b
    exact propext (hmem a b)
  obtain ⟨-, -, -, -, H, h5, h6⟩ := C60_grasp_dag he hl hr
  refine ⟨?_, fun a b => ?_, H, h5, h6⟩
  · rw [hE]
    exact finalParents_minimal hD hc h.perm
  · rw [hmem]
    exact finalParents_consistent hD hc h.perm a b

/-! ### the best order -/

/-- The total score of an order is the score of its DAG (with the sign of the search). -/
theorem total_dagScore {order : List (Fin p)} (hp : order.Perm (List.finRange p)) :
    total (trScore sc) order = - dagScore (fun v S => - sc v S) fun a b => a ∈ finalParents sc order b := by
  rw [total_eq_sum sc hp]
  unfold dagScore
  rw [Finset.sum_neg_distrib, neg_neg]
  refine Finset.sum_congr rfl fun v _ => ?_
  congr 1
  ext a
  simp

theorem optimal_equiv' {score : Fin p → Finset (Fin p) → K} (hD : Acyclic D) (hc : LocallyConsistent score D) (hse : ScoreEquiv score)
    {F : Fin p → Fin p → Prop} (hF : Acyclic F) (hopt : ∀ F', Acyclic F' → dagScore score F ≤ dagScore score F') : MarkovEquiv D F := by
  have hI : IMap D F := imap_of_forward hD hc hF fun i j _ _ hac => hopt _ hac
  rcases drop_improves hD hc hF hI with h | ⟨F', x, y, g1, g2, -, g4⟩
  · exact h
  · exfalso
    rw [hse F' _ g1 hF g2] at g4
    exact absurd (hopt _ (delArc_acyclic g1)) (not_le.2 g4)

/-- The true DAG has the best score. -/
theorem dagScore_true {score : Fin p → Finset (Fin p) → K} (hD : Acyclic D) (hc : LocallyConsistent score D) (hse : ScoreEquiv score)
    {F : Fin p → Fin p → Prop} (hF : Acyclic F) : dagScore score D ≤ dagScore score F := by
  obtain ⟨M, hM, hmin⟩ := Set.exists_min_image {F : Fin p → Fin p → Prop | Acyclic F} (dagScore score) (Set.toFinite _) ⟨D, hD⟩
  rw [hse D M hD hM (optimal_equiv' hD hc hse hM hmin)]
  exact hmin F hF

/-- **C81, the order of the data-generating DAG.** If the order lists causes before effects, the parents read off it are the parents in `D`. -/
theorem C81_causal_order (hD : Acyclic D) (hc : LocallyConsistent (fun v S => - sc v S) D) {order : List (Fin p)}
    (hp : order.Perm (List.finRange p)) (ho : ∀ a b, D a b → order.idxOf a < order.idxOf b) (a b : Fin p) : a ∈ finalParents sc order b ↔ D a b := by
  rw [finalParents_consistent hD hc hp]
  constructor
  · rintro ⟨h1, h2⟩
    by_contra hn
    refine h2 ?_
    have hloc : ∀ c, order.idxOf c < order.idxOf b → ¬ D c b → DSep D {x | D x b} b c := fun c hcb hn => (IMap.refl D).local ho hcb hn
    have he : {x | order.idxOf x < order.idxOf b ∧ x ≠ a} = {x | D x b} ∪ {x | order.idxOf x < order.idxOf b ∧ x ≠ a ∧ ¬ D x b} := by
      ext x
      simp only [Set.mem_setOf_eq, Set.mem_union]
      constructor
      · rintro ⟨g1, g2⟩
        by_cases g3 : D x b
        · exact Or.inl g3
        · exact Or.inr ⟨g1, g2, g3⟩
      · rintro (g1 | ⟨g1, g2, -⟩)
        · exact ⟨ho _ _ g1, fun e => hn (e ▸ g1)⟩
        · exact ⟨g1, g2⟩
    rw [he]
    refine dSep_union hD (hloc a h1 hn) (fun c hc => hloc c hc.1 hc.2.2) ?_ ?_
    · rintro (h | h)
      · exact hD.irrefl b h
      · exact lt_irrefl _ h.1
    · rintro (h | h)
      · exact hn h
      · exact h.2.1 rfl
  · intro h
    refine ⟨ho _ _ h, fun hs => hs (dConn_of_adj ?_ (Or.inr h))⟩
    rintro rfl
    exact hD.irrefl _ h

/-- every DAG has an order that lists causes before effects -/
theorem exists_causal_order (hD : Acyclic D) : ∃ order : List (Fin p), order.Perm (List.finRange p) ∧ ∀ a b, D a b → order.idxOf a < order.idxOf b := by
  obtain ⟨ρ, N, hinj, hρ, -⟩ := hD.exists_inj_rank
  have : Std.Total (fun a b : Fin p => ρ a ≤ ρ b) := ⟨fun a b => le_total _ _⟩
  have : IsTrans (Fin p) (fun a b => ρ a ≤ ρ b) := ⟨fun a b c => le_trans⟩
  have hp := List.perm_insertionSort (fun a b : Fin p => ρ a ≤ ρ b) (List.finRange p)
  have hs := List.pairwise_insertionSort (fun a b : Fin p => ρ a ≤ ρ b) (List.finRange p)
  refine ⟨_, hp, fun a b hab => ?_⟩
  generalize List.insertionSort (fun a b : Fin p => ρ a ≤ ρ b) (List.finRange p) = l at hp hs
  have hm : ∀ x, x ∈ l := fun x => hp.mem_iff.2 (List.mem_finRange x)
  by_contra hcon
  have hne : a ≠ b := fun e => absurd (hρ _ _ hab) (by rw [e]; exact lt_irrefl _)
  have hlt : l.idxOf b < l.idxOf a := lt_of_le_of_ne (not_lt.1 hcon) fun e => hne ((List.idxOf_inj (hm a)).1 e.symm)
  have := List.pairwise_iff_getElem.1 hs (l.idxOf b) (l.idxOf a) (List.idxOf_lt_length_iff.2 (hm b)) (List.idxOf_lt_length_iff.2 (hm a)) hlt
  rw [List.getElem_idxOf, List.getElem_idxOf] at this
  exact absurd (hρ _ _ hab) (not_lt.2 this)

/-- The score of an order that lists causes before effects. -/
theorem total_causal (hD : Acyclic D) (hc : LocallyConsistent (fun v S => - sc v S) D) {order : List (Fin p)}
    (hp : order.Perm (List.finRange p)) (ho : ∀ a b, D a b → order.idxOf a < order.idxOf b) :
    total (trScore sc) order = - dagScore (fun v S => - sc v S) D := by
  rw [total_dagScore hp]
  congr 2
  funext a b
  exact propext (C81_causal_order hD hc hp ho a b)

/-- **C81, the best order.** If the score also respects Markov equivalence, an order scores at least as well as all others exactly when the DAG it
determines is Markov equivalent to `D`. -/
theorem C81_best_order (hD : Acyclic D) (hc : LocallyConsistent (fun v S => - sc v S) D) (hse : ScoreEquiv fun v S => - sc v S) {order : List (Fin p)}
    (hp : order.Perm (List.finRange p)) :
    (∀ order', order'.Perm (List.finRange p) → total (trScore sc) order' ≤ total (trScore sc) order) ↔
      MarkovEquiv D fun a b => a ∈ finalParents sc order b := by
  have hac := acyclic_of_order (finalParents_before sc order)
  constructor
  · intro h
    obtain ⟨l, hl, hlD⟩ := exists_causal_order hD
    have := h l hl
    rw [total_causal hD hc hl hlD, total_dagScore hp] at this
    exact optimal_equiv' hD hc hse hac fun F' hF' => (neg_le_neg_iff.1 this).trans (dagScore_true hD hc hse hF')
  · intro h l hl
    rw [total_dagScore hl, total_dagScore hp]
    refine neg_le_neg ?_
    rw [← hse D _ hD hac h]
    exact dagScore_true hD hc hse (acyclic_of_order (finalParents_before sc l))

/-- **C82** (what is true). BOSS on columns in causal order: if the columns list causes before effects (`D a b → a < b`), BOSS returns the essential graph of `D`. Missing:
the same for other orders of the columns, which is false. -/
theorem C82_boss_causal_partial (hD : ∀ a b, D a b → a < b) (hc : LocallyConsistent (fun v S => - sc v S) D) (hse : ScoreEquiv fun v S => - sc v S) {eps : K}
    (he : 0 < eps) (sched : Nat → List (Fin p)) :
    ∃ f0, ∀ fuel cfuel, f0 ≤ fuel → p * p + p < cfuel → ∃ order H, boss sc eps sched fuel cfuel = some (order, .ok H) ∧
      ∀ a b, (H.g a b = .null ↔ ¬ Adj D a b) ∧ (H.Arrow a b ↔ Compelled D a b) := by
  have hac : Acyclic D := acyclic_of_rank (ρ := fun a => a.val) fun a b h => hD a b h
  obtain ⟨f0, h0⟩ := C38_boss sc he sched
  refine ⟨f0, fun fuel cfuel hf hcf => ?_⟩
  obtain ⟨order, H, h1, h2, -, h5, -, h3, h4⟩ := h0 fuel cfuel hf hcf
  refine ⟨order, H, h1, fun a b => ?_⟩
  rw [total_causal hac hc (List.Perm.refl _) (fun a b h => by rw [List.idxOf_finRange, List.idxOf_finRange]; exact hD a b h), total_dagScore h2] at h5
  have hE : MarkovEquiv D fun a b => a ∈ finalParents sc order b :=
    optimal_equiv' hac hc hse h3 fun F' hF' => (neg_le_neg_iff.1 h5).trans (dagScore_true hac hc hse hF')
  rw [(h4 a b).1, (h4 a b).2, compelled_congr hac h3 hE, hE.1]
  exact ⟨Iff.rfl, Iff.rfl⟩

/-! ### BIC -/

/-- **C81, BOSS with BIC.** On linear data with uncorrelated errors and strong dependences (see C80), with the score BOSS uses by default. -/
theorem C81_boss_bic (hD : Acyclic D) {N : Nat} {data : Fin N → Fin p → ℝ} (hm : LinearModel D data) (hN : 2 ≤ N) {lam : ℝ}
    (hlam : 0 < lam) (hs : Score.StrongDependence D data lam) {lst : Finset (Fin p) → List (Fin p)} (hlst : ∀ S, (lst S).Nodup ∧ (lst S).toFinset = S)
    {eps : ℝ} (he : 0 < eps) (sched : Nat → List (Fin p)) :
    ∃ f0, ∀ fuel cfuel, f0 ≤ fuel → p * p + p < cfuel → ∃ order H F, boss (fun i S => - Score.bicData data lam i (lst S)) eps sched fuel cfuel = some (order, .ok H) ∧
      order.Perm (List.finRange p) ∧ Acyclic F ∧ MinimalIMap D F ∧
      (∀ a b, F a b ↔ order.idxOf a < order.idxOf b ∧ ¬ DSep D {x | order.idxOf x < order.idxOf b ∧ x ≠ a} b a) ∧
      ∀ a b, (H.g a b = .null ↔ ¬ Adj F a b) ∧ (H.Arrow a b ↔ Compelled F a b) :=
  C81_boss hD (by simpa using Score.C80_bic_locally_consistent hD hm hN hlam hs hlst) he sched

/-! ### C82: BOSS can stop at an order that is not best -/

/-- The DAG `2 → 0 ← 3`, `0 → 1`. -/
def yE (a b : Fin 4) : Bool := (a, b) == (2, 0) || (a, b) == (3, 0) || (a, b) == (0, 1)

/-- One if some element of `l` is in `S`. -/
def hit (l : List (Fin 4)) (S : Finset (Fin 4)) : Int := if ∃ x ∈ l, x ∈ S then 1 else 0

/-- A joint entropy (in bits) of four variables that obey exactly the d-separations of `yE`: the variables consist of shared bits, and 0 contains the sum
of a bit of 2 and a bit of 3. -/
def yEntropy (S : Finset (Fin 4)) : Int :=
  min 2 (hit [2] S + hit [3] S + hit [0, 1] S) + hit [2, 0, 1] S + hit [3, 0, 1] S + hit [0, 1] S + hit [0, 2] S + hit [0, 3] S

/-- `2 · entropy` and a term whose increments count the parents. -/
def yF (S : Finset (Fin 4)) : Int := 2 * yEntropy S + S.card * (S.card - 1) / 2

/-- Minus (twice the conditional entropy of `v` given `S`, plus one for each parent): penalised likelihood. -/
def yScore (v : Fin 4) (S : Finset (Fin 4)) : Int := - (yF (insert v S) - yF S)

theorem y_acyclic : Acyclic fun a b => yE a b = true :=
  acyclic_of_rank (ρ := ![1, 2, 0, 0]) (by decide)

theorem y_scoreEquiv : ScoreEquiv fun v S => - yScore v S := by
  intro D F hD hF h
  simp only [yScore, neg_neg]
  exact ScoreEq.score_equiv hD hF h yF

theorem y_consistent : LocallyConsistent (fun v S => - yScore v S) fun a b => yE a b = true := by
  have key : ∀ i j (S : Finset (Fin 4)), i ≠ j → i ∉ S → j ∉ S →
      (dconnB yE (fun v => decide (v ∈ S)) i j = true → - yScore i (insert j S) < - yScore i S) ∧
      (dconnB yE (fun v => decide (v ∈ S)) i j = false → - yScore i S < - yScore i (insert j S)) := by decide +kernel
  intro i j S hij hi hj
  have h := key i j S hij hi hj
  have hd : dconnB yE (fun v => decide (v ∈ S)) i j = true ↔ DConn (fun a b => yE a b = true) ↑S i j := by
    rw [dconnB_iff (r := ![1, 2, 0, 0]) (by decide) (by decide)]
    simp
  refine ⟨fun hc => h.1 (hd.2 (not_not.1 hc)), fun hc => h.2 (Bool.eq_false_iff.2 fun e => hc (hd.1 e))⟩

/-- no single move improves the initial order -/
theorem y_stuck : ∀ v : Fin 4, (mutationScores (trScore yScore) v (List.finRange 4)).1 (mutationScores (trScore yScore) v (List.finRange 4)).2 ≤
    (mutationScores (trScore yScore) v (List.finRange 4)).1 ((List.finRange 4).idxOf v) := by decide +kernel

theorem y_parents : finalParents yScore (List.finRange 4) 3 = [0, 2] := by decide +kernel

/-- **C82 is false**: for the DAG `2 → 0 ← 3`, `0 → 1` there is a score that is locally consistent for it and respects Markov equivalence, with which
BOSS, whatever the shuffles, stops at once with the order `0, 1, 2, 3` and returns a graph in which 2 and 3 are adjacent. (GES returns the essential
graph of the DAG with every such score, `C79_ges_consistent`.) -/
theorem C82_boss_local_optimum_violated :
    ∃ (D : Fin 4 → Fin 4 → Prop) (sc : Fin 4 → Finset (Fin 4) → Int), Acyclic D ∧ LocallyConsistent (fun v S => - sc v S) D ∧
      ScoreEquiv (fun v S => - sc v S) ∧ ¬ Adj D 2 3 ∧
      ∀ (eps : Int) (sched : Nat → List (Fin 4)) (fuel cfuel : Nat), 0 < eps → 0 < fuel → 20 < cfuel →
        ∃ H, boss sc eps sched fuel cfuel = some (List.finRange 4, .ok H) ∧ H.g 2 3 ≠ .null := by
  refine ⟨_, yScore, y_acyclic, y_consistent, y_scoreEquiv, by unfold Adj; decide, fun eps sched fuel cfuel he hf hcf => ?_⟩
  have hb : ∀ v, betterMutation (trScore yScore) eps (List.finRange 4) v = (false, List.finRange 4) := by
    intro v
    unfold betterMutation
    dsimp only
    rw [if_pos (lt_of_le_of_lt (y_stuck v) (lt_add_of_pos_right _ he))]
  have hsw : ∀ vars, sweep (trScore yScore) eps vars (List.finRange 4) = (false, List.finRange 4) := by
    intro vars
    unfold sweep
    induction vars with
    | nil => rfl
    | cons v vars ih =>
      rw [List.foldl_cons]
      simp only [hb, Bool.or_self]
      exact ih
  obtain ⟨hd, hA⟩ := parentsGraph_isDag (acyclic_of_order (finalParents_before yScore (List.finRange 4)))
  obtain ⟨H, hH, hsp⟩ := C25_essential_graph hd
  refine ⟨H, ?_, ?_⟩
  · obtain ⟨f, rfl⟩ : ∃ f, fuel = f + 1 := ⟨fuel - 1, by omega⟩
    unfold boss
    rw [bossLoop, hsw]
    simp only [Bool.false_eq_true, if_false, Option.map_some]
    rw [hH cfuel (by omega)]
  · rw [ne_eq, (hsp 2 3).1, not_not]
    refine Or.inl ((hA 2 3).2 ?_)
    rw [y_parents]
    simp

/-- The hypotheses of C81 hold for `yScore`; the minimal independence map found by BOSS is the one with the extra edge. -/
example : MinimalIMap (fun a b => yE a b = true) fun a b => a ∈ finalParents yScore (List.finRange 4) b :=
  finalParents_minimal y_acyclic y_consistent (List.Perm.refl _)

/-- The causal order `2, 3, 0, 1` gives the true parents. -/
example : (List.finRange 4).map (finalParents yScore [2, 3, 0, 1]) = [[2, 3], [0], [], []] := by decide +kernel

end Perm
end CL
