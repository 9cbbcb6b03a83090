import Verif.Props.GesRun
import Mathlib.Algebra.Order.Ring.Int

/-!
# C36: runs of GES

`Greedy` below is the specification of a phase: repeatedly apply a valid operator with the least change of score, as long as that
change is negative, and pass to the essential graph of the changed DAG.
-/
namespace CL
namespace Ges
open GG Spec Relation
variable {n : Nat} {K : Type} [AddCommGroup K] [LinearOrder K]

/-- A greedy run: `S D` the score of a DAG, `V P d` the valid operators in the essential graph `P`, `δ P d` their change of score, `ch D d`
their effect on a DAG. In every step some DAG `D` of the current class is changed into a DAG of the next class, and its score changes by
`δ P d`. -/
inductive Greedy (S : (Fin n → Fin n → Prop) → K) (V : GG n → Desc n → Prop) (δ : GG n → Desc n → K) (ch : (Fin n → Fin n → Prop) → Desc n → Fin n → Fin n → Prop) :
    GG n → List (Desc n) → GG n → Prop
  | stop {P : GG n} : (∀ d, V P d → 0 ≤ δ P d) → Greedy S V δ ch P [] P
  | step {P H Q : GG n} {d : Desc n} {ds : List (Desc n)} {D : Fin n → Fin n → Prop} : V P d → (∀ d', V P d' → δ P d ≤ δ P d') →
      δ P d < 0 → Essential P D → Essential H (ch D d) → S (ch D d) = S D + δ P d → Greedy S V δ ch H ds Q → Greedy S V δ ch P (d :: ds) Q

theorem Greedy.final {S : (Fin n → Fin n → Prop) → K} {V : GG n → Desc n → Prop} {δ : GG n → Desc n → K} {ch : (Fin n → Fin n → Prop) → Desc n → Fin n → Fin n → Prop}
    {P Q : GG n} {ds : List (Desc n)} (h : Greedy S V δ ch P ds Q) : ∀ d, V Q d → 0 ≤ δ Q d := by
  induction h with
  | stop h => exact h
  | step _ _ _ _ _ _ _ ih => exact ih

variable [IsOrderedAddMonoid K]

theorem phase_run {sc : Fin n → Finset (Fin n) → K} {big : K} (hbig : 0 ≤ big) {scan : GG n → Scan n K → Scan n K}
    {op : GG n → Desc n → GG n} {V : GG n → Desc n → Prop} {δ : GG n → Desc n → K}
    {ch : (Fin n → Fin n → Prop) → Desc n → Fin n → Fin n → Prop} {μ : (Fin n → Fin n → Prop) → Nat}
    (hμ : ∀ D F, MarkovEquiv D F → μ D = μ F)
    (hscan : ∀ P r, P.IsPdag → RecOk sc r → ScanOk sc big (V P) (δ P) (V P) (scan P ⟨r, big, none⟩))
    (hstep : ∀ P E d, Essential P E → V P d → ∃ F F', Acyclic F ∧ MarkovEquiv E F ∧ F' = ch F d ∧ Acyclic F' ∧
      dagScore sc F' = dagScore sc F + δ P d ∧ (op P d).IsPdag ∧ ConsistentExt (op P d) F' ∧ μ F' + 2 = μ F) :
    ∀ (k : Nat) (s : St n K) (E : Fin n → Fin n → Prop), μ E ≤ k → Essential s.graph E → RecOk sc s.record →
      ∃ s' E' ds, (∀ fuel, k + 1 ≤ fuel → phase big scan op fuel s = some s') ∧ Essential s'.graph E' ∧ RecOk sc s'.record ∧
        s'.updates = s.updates ++ ds ∧ Greedy (dagScore sc) V δ ch s.graph ds s'.graph ∧ μ E' + 2 * ds.length = μ E ∧ s'.score ≤ s.score ∧
        (ds ≠ [] → s'.score < s.score) ∧ s'.objs.length = s.objs.length + ds.length ∧
        (ds ≠ [] ∨ s.objs.getLast? = some s.graph → s'.objs.getLast? = some s'.graph) ∧
        (ScoreEquiv sc → s.score = dagScore sc E → s'.score = dagScore sc E') := by
  intro k
  induction k using Nat.strong_induction_on with
  | _ k ih =>
  intro s E hk hE hR
  have hs := hscan s.graph s.record hE.isPdag hR
  generalize hr : scan s.graph ⟨s.record, big, none⟩ = r at hs
  have unf : ∀ f, phase big scan op (f + 1) s = (match r.desc with
    | none => some { s with record := r.record }
    | some d =>
      if s.score - (s.score + r.best) ≤ 0 then some { s with record := r.record }
      else
        match (op s.graph d).pdag2dag n with
        | none => none
        | some D =>
          match D.dag2cpdag (n * n + n + 1) with
          | .ok H => phase big scan op f ⟨H, mutateLast s.objs (op s.graph d) ++ [H], s.updates ++ [d], s.score + r.best, r.record⟩
          | _ => none) := by
    intro f; rw [phase]; simp only [hr]; rfl
  have stop : (∀ f, phase big scan op (f + 1) s = some { s with record := r.record }) → 0 ≤ r.best →
      ∃ s' E' ds, (∀ fuel, k + 1 ≤ fuel → phase big scan op fuel s = some s') ∧ Essential s'.graph E' ∧ RecOk sc s'.record ∧
        s'.updates = s.updates ++ ds ∧ Greedy (dagScore sc) V δ ch s.graph ds s'.graph ∧ μ E' + 2 * ds.length = μ E ∧ s'.score ≤ s.score ∧
        (ds ≠ [] → s'.score < s.score) ∧ s'.objs.length = s.objs.length + ds.length ∧
        (ds ≠ [] ∨ s.objs.getLast? = some s.graph → s'.objs.getLast? = some s'.graph) ∧
        (ScoreEquiv sc → s.score = dagScore sc E → s'.score = dagScore sc E') := by
    intro h1 h2
    refine ⟨{ s with record := r.record }, E, [], ?_, hE, hs.rows, by simp, .stop fun d hd => h2.trans (hs.le d hd), by simp,
      le_refl _, by simp, by simp, ?_, fun _ h => h⟩
    · intro fuel hf
      obtain ⟨f, rfl⟩ : ∃ f, fuel = f + 1 := ⟨fuel - 1, by omega⟩
      exact h1 f
    · rintro (hG | hG)
      · exact absurd rfl hG
      · exact hG
  rcases hs.res with ⟨hn, hb⟩ | ⟨d, hd, hV, hb⟩
  · refine stop (fun f => ?_) (by rw [hb]; exact hbig)
    rw [unf, hn]
  · by_cases hle : s.score - (s.score + r.best) ≤ 0
    · refine stop (fun f => ?_) ?_
      · rw [unf, hd]; dsimp only; rw [if_pos hle]
      · rwa [sub_add_cancel_left, neg_nonpos] at hle
    · have hneg : r.best < 0 := by
        rw [sub_add_cancel_left, neg_nonpos] at hle; exact not_le.1 hle
      obtain ⟨F, F', hF, hEF, hch, hF', hsc, hop, hext, hμF⟩ := hstep _ _ _ hE hV
      obtain ⟨D, H, hD, hH, hEss⟩ := convert hop hext
      have hμE := hμ E F hEF
      obtain ⟨s', E', ds, c1, c2, c3, c4, c5, c6, c7, c8, c9, c10, c11⟩ := ih (k - 1) (by omega)
        ⟨H, mutateLast s.objs (op s.graph d) ++ [H], s.updates ++ [d], s.score + r.best, r.record⟩ F' (by omega) hEss hs.rows
      have hlt : s'.score < s.score := lt_of_le_of_lt c7 (add_lt_of_neg_right _ hneg)
      refine ⟨s', E', d :: ds, ?_, c2, c3, ?_, ?_, ?_, hlt.le, fun _ => hlt, ?_, ?_, ?_⟩
      · intro fuel hf
        obtain ⟨f, rfl⟩ : ∃ f, fuel = f + 1 := ⟨fuel - 1, by omega⟩
        rw [unf, hd]
        dsimp only
        rw [if_neg hle, hD]
        dsimp only
        rw [hH]
        exact c1 f (by omega)
      · rw [c4]; simp
      · refine .step hV (fun d' hd' => hb ▸ hs.le d' hd') (hb ▸ hneg) (hE.congr hF hEF) ?_ ?_ c5
        · rw [← hch]; exact hEss
        · rw [← hch, hsc]
      · simp only [List.length_cons]; omega
      · have : (mutateLast s.objs (op s.graph d)).length = s.objs.length := by
          unfold mutateLast
          split
          · rename_i h0; simp [h0]
          · rename_i h0
            have := List.length_pos_iff.2 h0
            simp only [List.length_append, List.length_dropLast, List.length_cons, List.length_nil]
            omega
        rw [c9]; simp only [List.length_append, List.length_cons, List.length_nil, this]; omega
      · intro _
        exact c10 (Or.inr (by simp))
      · intro hse h0
        refine c11 hse ?_
        dsimp only
        rw [h0, hsc, hb, hse E F hE.acyclic hF hEF]

/-- an Insert applied to a DAG: the new edge -/
def insertCh (D : Fin n → Fin n → Prop) (d : Desc n) : Fin n → Fin n → Prop := addArc D d.1 d.2.1

/-- a Delete applied to a DAG -/
def deleteCh (D : Fin n → Fin n → Prop) (d : Desc n) : Fin n → Fin n → Prop := delArc D d.1 d.2.1

/-- the graph without edges -/
def noEdge : Fin n → Fin n → Prop := fun _ _ => False

theorem noEdge_acyclic : Acyclic (noEdge (n := n)) := by
  intro v hv
  cases hv with
  | single h => exact h
  | tail _ h => exact h

theorem noEdge_count : adjCount (noEdge (n := n)) = 0 := by
  classical
  unfold adjCount
  rw [Finset.card_eq_zero]
  ext p
  simp [Adj, noEdge]

theorem init_run (sc : Fin n → Finset (Fin n) → K) : ∃ H, init sc = some ⟨H, [], [], dagScore sc noEdge, fun _ => []⟩ ∧
    Essential H noEdge := by
  have hP : (GG.empty n).IsPdag := by
    refine ⟨fun a b hab => absurd (empty_g a b) hab, fun a => empty_g a a⟩
  have hE : ConsistentExt (GG.empty n) noEdge := by
    refine ⟨noEdge_acyclic, fun a b => ?_, ?_, ?_⟩
    · rw [hP.adj_iff]; simp [Adj, noEdge, GG.empty]
    · intro a b hab; simp [GG.Arrow, GG.empty] at hab
    · intro a b c hv; exact hv.2.2.1.elim
  obtain ⟨D, H, h1, h2, h3⟩ := convert hP hE
  refine ⟨H, ?_, h3⟩
  unfold init
  rw [h1]; dsimp only; rw [h2]
  have hpar : ∀ i, ((GG.empty n).parents i).toFinset = ∅ := by
    intro i; ext w; simp [GG.parents, GG.empty]
  have : scoreG sc (GG.empty n) = dagScore sc noEdge := by
    classical
    unfold scoreG dagScore
    simp only [hpar]
    have h0 : ∀ (l : List (Fin n)) (a : K), l.foldl (fun acc i => acc + sc i ∅) a = a + (l.map fun i => sc i ∅).sum := by
      intro l
      induction l with
      | nil => intro a; simp
      | cons x l ih => intro a; rw [List.foldl_cons, ih, List.map_cons, List.sum_cons, add_assoc]
    rw [h0, zero_add]
    have e : ∀ v : Fin n, (Finset.univ.filter fun w => noEdge w v) = (∅ : Finset (Fin n)) := by
      intro v; exact Finset.filter_eq_empty_iff.2 (fun w _ h => h)
    simp only [e]
    rw [← List.ofFn_eq_map, List.sum_ofFn]
  rw [this]

/-! ## The claims -/

/-- the two phases together, from which the statements below are read off -/
theorem ges_run (sc : Fin n → Finset (Fin n) → K) {big : K} (hbig : 0 ≤ big) (maxP : Nat) :
    ∃ R P0 P1 D1 D2, (∀ fuel, n * n + 1 ≤ fuel → ges sc big maxP fuel = some R) ∧ Essential P0 noEdge ∧ Essential P1 D1 ∧
      Essential R.G D2 ∧ Greedy (dagScore sc) (fun P => ValidInsert P maxP) (insertDelta sc) insertCh P0 R.update1 P1 ∧
      Greedy (dagScore sc) ValidDelete (deleteDelta sc) deleteCh P1 R.update2 R.G ∧ adjCount D1 = 2 * R.update1.length ∧
      adjCount D2 + 2 * R.update2.length = adjCount D1 ∧ R.score ≤ dagScore sc noEdge ∧
      R.gStep1.length = R.update1.length ∧ R.gStep2.length = R.update2.length ∧
      (R.update1 ≠ [] ∨ R.update2 ≠ [] → (R.gStep1 ++ R.gStep2).getLast? = some R.G) ∧
      (ScoreEquiv sc → R.score = dagScore sc D2 ∧ (dagScore sc D1 ≤ dagScore sc noEdge ∧ R.score ≤ dagScore sc D1)) := by
  obtain ⟨P0, hi, hE0⟩ := init_run sc
  obtain ⟨s1, D1, ds1, a1, a2, a3, a4, a5, a6, a7, -, a9, a10, a11⟩ := phase_run (sc := sc) hbig
    (scan := insertScan sc maxP) (op := insertOp) (V := fun P => ValidInsert P maxP) (δ := insertDelta sc) (ch := insertCh)
    (μ := fun D => n * n - adjCount D) (fun D F h => by rw [adjCount_congr h.1])
    (fun P r hP hr => insertScan_ok hP hr)
    (fun P E d hE hV => by
      obtain ⟨F, F', b1, b2, b3, b4, b5, b6, b7, b8⟩ := insert_step (sc := sc) hE hV
      have := adjCount_le F'
      exact ⟨F, F', b1, b2, b3, b4, b5, b6, b7, by omega⟩)
    (n * n) ⟨P0, [], [], dagScore sc noEdge, fun _ => []⟩ noEdge (Nat.sub_le _ _) hE0 (fun _ _ h => by simp at h)
  obtain ⟨s2, D2, ds2, c1, c2, c3, c4, c5, c6, c7, -, c9, c10, c11⟩ := phase_run (sc := sc) hbig
    (scan := deleteScan sc) (op := deleteOp) (V := ValidDelete) (δ := deleteDelta sc) (ch := deleteCh)
    (μ := adjCount) (fun D F h => adjCount_congr h.1)
    (fun P r hP hr => deleteScan_ok hP hr)
    (fun P E d hE hV => delete_step (sc := sc) hE hV)
    (n * n) { s1 with updates := [] } D1 (adjCount_le D1) a2 a3
  dsimp only at a4 a5 a7 a9 a11 c4 c5 c7 c9 c11
  rw [List.nil_append] at a4 c4
  rw [List.length_nil, Nat.zero_add] at a9
  have hl := adjCount_le D1
  have h0 := noEdge_count (n := n)
  refine ⟨⟨s2.graph, s2.score, s1.updates, s2.updates, s2.objs.take s1.objs.length, s2.objs.drop s1.objs.length⟩, P0, s1.graph,
    D1, D2, ?_, hE0, a2, c2, a4 ▸ a5, c4 ▸ c5, ?_, ?_, c7.trans a7, ?_, ?_, ?_, ?_⟩
  · intro fuel hf
    have h1 := a1 fuel hf
    have h2 := c1 fuel hf
    simp only [ges, forward, hi, Option.bind_some, h1, backward, h2, Option.map_some]
  · dsimp only; rw [a4]; omega
  · dsimp only; rw [c4]; exact c6
  · dsimp only; rw [List.length_take, c9, a9, a4]; omega
  · dsimp only; rw [List.length_drop, c9, c4]; omega
  · dsimp only
    rw [List.take_append_drop, a4, c4]
    intro h
    refine c10 ?_
    by_cases h2 : ds2 = []
    · exact Or.inr (a10 (Or.inl (h.resolve_right (fun hc => hc h2))))
    · exact Or.inl h2
  · intro hse
    have e1 := a11 hse rfl
    exact ⟨c11 hse e1, e1 ▸ a7, e1 ▸ c7⟩

/-- **C36.** For every local score function (score-equivalent or not), `ges` terminates; every graph it passes through is the
essential graph of a DAG (in each `Greedy` step a DAG of the current class gets, or loses, exactly one edge, and the next graph is
the essential graph of the result); each operator applied is a best valid one and strictly improves the score; the returned graph
is the essential graph of a DAG with `|update1| - |update2|` edges (`adjCount` counts each edge twice). -/
theorem C36_ges_terminates (sc : Fin n → Finset (Fin n) → K) {big : K} (hbig : 0 ≤ big) (maxP : Nat) :
    ∃ R, (∀ fuel, n * n + 1 ≤ fuel → ges sc big maxP fuel = some R) ∧
      ∃ P0 P1 D2, Essential P0 noEdge ∧ Greedy (dagScore sc) (fun P => ValidInsert P maxP) (insertDelta sc) insertCh P0 R.update1 P1 ∧
        Greedy (dagScore sc) ValidDelete (deleteDelta sc) deleteCh P1 R.update2 R.G ∧ Essential R.G D2 ∧
        adjCount D2 + 2 * R.update2.length = 2 * R.update1.length ∧
        R.gStep1.length = R.update1.length ∧ R.gStep2.length = R.update2.length := by
  obtain ⟨R, P0, P1, D1, D2, h1, h2, -, h4, h5, h6, h7, h8, -, h10, h11, -, -⟩ := ges_run sc hbig maxP
  exact ⟨R, h1, P0, P1, D2, h2, h5, h6, h4, by omega, h10, h11⟩

/-- **C36, the reported score.** For a score-equivalent score, `Record["score"]` is the score of every DAG in the returned
equivalence class, and it is at most the score of the graph without edges. -/
theorem C36_ges_score {sc : Fin n → Finset (Fin n) → K} (hse : ScoreEquiv sc) {big : K} (hbig : 0 ≤ big) {maxP fuel : Nat}
    (hf : n * n + 1 ≤ fuel) {R : Result n K} (hR : ges sc big maxP fuel = some R) {D : Fin n → Fin n → Prop} (hD : Essential R.G D) :
    R.score = dagScore sc D ∧ R.score ≤ dagScore sc noEdge := by
  obtain ⟨R', P0, P1, D1, D2, h1, h2, h3, h4, h5, h6, h7, h8, h9, h10, h11, h13, h12⟩ := ges_run sc hbig maxP
  rw [h1 fuel hf] at hR
  cases hR
  refine ⟨?_, h9⟩
  rw [(h12 hse).1]
  exact hse D2 D h4.acyclic hD.acyclic (h4.equiv hD)

/-- **C36, end of the forward phase.** The forward phase ends in a class in which no single edge can be added to any member DAG with
a better score (as long as the parent limit allows the operator), and the backward phase starts from that class. -/
theorem C36_forward_optimal {sc : Fin n → Finset (Fin n) → K} {big : K} (hbig : 0 ≤ big) {maxP fuel : Nat}
    (hf : n * n + 1 ≤ fuel) {R : Result n K} (hR : ges sc big maxP fuel = some R) :
    ∃ P1, Greedy (dagScore sc) ValidDelete (deleteDelta sc) deleteCh P1 R.update2 R.G ∧ (∃ D1, Essential P1 D1 ∧ adjCount D1 = 2 * R.update1.length) ∧
      ∀ D i j, Essential P1 D → i ≠ j → ¬ Adj D i j → Acyclic (addArc D i j) → (parN P1 j).card ≤ maxP →
        dagScore sc D ≤ dagScore sc (addArc D i j) := by
  obtain ⟨R', P0, P1, D1, D2, h1, h2, h3, h4, h5, h6, h7, h8, h9, h10, h11, h13, h12⟩ := ges_run sc hbig maxP
  rw [h1 fuel hf] at hR
  cases hR
  exact ⟨P1, h6, ⟨D1, h3, h7⟩, fun D i j hD hij hna hac hmax => insert_optimal h3 h5.final hD hij hna hac hmax⟩

/-- **C36, end of the backward phase.** In the returned class no single edge can be removed from any member DAG with a better
score. -/
theorem C36_backward_optimal {sc : Fin n → Finset (Fin n) → K} {big : K} (hbig : 0 ≤ big) {maxP fuel : Nat}
    (hf : n * n + 1 ≤ fuel) {R : Result n K} (hR : ges sc big maxP fuel = some R) {D : Fin n → Fin n → Prop} (hD : Essential R.G D)
    {i j : Fin n} (hij : D i j) : dagScore sc D ≤ dagScore sc (delArc D i j) := by
  obtain ⟨R', P0, P1, D1, D2, h1, h2, h3, h4, h5, h6, h7, h8, h9, h10, h11, h13, h12⟩ := ges_run sc hbig maxP
  rw [h1 fuel hf] at hR
  cases hR
  exact delete_optimal h4 h6.final hD hij

/-- **C63, the part that holds.** Each phase records one graph per operator applied, and the last recorded graph is the returned
one. The earlier ones are overwritten, see `C63_steps_overwritten_violated`. -/
theorem C63_last_step_partial {sc : Fin n → Finset (Fin n) → K} {big : K} (hbig : 0 ≤ big) {maxP fuel : Nat}
    (hf : n * n + 1 ≤ fuel) {R : Result n K} (hR : ges sc big maxP fuel = some R) :
    R.gStep1.length = R.update1.length ∧ R.gStep2.length = R.update2.length ∧
      (R.update1 ≠ [] ∨ R.update2 ≠ [] → (R.gStep1 ++ R.gStep2).getLast? = some R.G) := by
  obtain ⟨R', P0, P1, D1, D2, h1, h2, h3, h4, h5, h6, h7, h8, h9, h10, h11, h13, h12⟩ := ges_run sc hbig maxP
  rw [h1 fuel hf] at hR
  cases hR
  exact ⟨h10, h11, h13⟩

/-! ## A concrete run: the collider `0 → 2 ← 1` -/

/-- a score that wants exactly the collider: node 2 gains from having both others as parents -/
def exSc (v : Fin 3) (A : Finset (Fin 3)) : Int :=
  if v = 2 then (if A = ∅ then 10 else if A = {0} then 8 else if A = {1} then 9 else 1)
  else if v = 0 then (if A = ∅ then 10 else if A = {2} then 8 else if A = {1} then 12 else 20)
  else (if A = ∅ then 10 else if A = {2} then 9 else if A = {0} then 12 else 20)

/-- the marks of a graph as a list, to compare graphs by computation -/
def marks (G : GG 3) : List Mark := (List.finRange 3).flatMap fun a => (List.finRange 3).map fun b => G.g a b

set_option maxRecDepth 100000 in
example : (ges exSc 1000 1 10).map (fun R => (marks R.G, R.score, R.update1.map fun d => (d.1, d.2.1))) =
    some ([.null, .null, .tail, .null, .null, .tail, .arrow, .arrow, .null], 21, [(0, 2), (1, 2)]) := by decide +kernel

/-- the number of edges of a DAG is half of `adjCount` -/
theorem adjCount_eq {D : Fin n → Fin n → Prop} (hD : Acyclic D) [∀ v, DecidablePred fun w => D w v] :
    adjCount D = 2 * ∑ v, (Finset.univ.filter fun w => D w v).card := by
  classical
  have h1 : ∑ v, (Finset.univ.filter fun w => D w v).card = (Finset.univ.filter fun p : Fin n × Fin n => D p.1 p.2).card := by
    rw [Finset.card_filter, Fintype.sum_prod_type_right]
    exact Finset.sum_congr rfl fun v _ => by rw [Finset.card_filter]
  have h2 : ∑ v, (Finset.univ.filter fun w => D w v).card = (Finset.univ.filter fun p : Fin n × Fin n => D p.2 p.1).card := by
    rw [Finset.card_filter, Fintype.sum_prod_type]
    exact Finset.sum_congr rfl fun v _ => by rw [Finset.card_filter]
  have h3 : adjCount D = (Finset.univ.filter fun p : Fin n × Fin n => D p.1 p.2).card +
      (Finset.univ.filter fun p : Fin n × Fin n => D p.2 p.1).card := by
    unfold adjCount
    rw [← Finset.card_union_of_disjoint]
    · congr 1
      ext p
      rw [Finset.mem_filter, Finset.mem_union, Finset.mem_filter, Finset.mem_filter]
      simp [Adj]
    · rw [Finset.disjoint_left]
      intro p hp hq
      simp only [Finset.mem_filter, Finset.mem_univ, true_and] at hp hq
      exact hD.asymm hp hq
  omega

/-- a score-equivalent score: every edge is worth one -/
example : ScoreEquiv (n := n) (K := Int) fun _ A => -(A.card : Int) := by
  classical
  intro D F hD hF he
  have h1 := adjCount_eq hD
  have h2 := adjCount_eq hF
  rw [adjCount_congr he.1, h2] at h1
  unfold dagScore
  rw [Finset.sum_neg_distrib, Finset.sum_neg_distrib, ← Nat.cast_sum, ← Nat.cast_sum]
  congr 2
  convert (Nat.eq_of_mul_eq_mul_left (by decide) h1).symm

/-- with that score GES returns the complete undirected graph -/
example : (ges (n := 3) (fun _ A => -(A.card : Int)) 1000 3 10).map (fun R => (marks R.G, R.score)) =
    some ([.null, .tail, .tail, .tail, .null, .tail, .tail, .tail, .null], -3) := by
  set_option maxRecDepth 100000 in decide +kernel

/-- **C63 is violated.** `G_step1[k]` is supposed to be the graph learned after `k + 1` steps, the essential graph of a DAG with
`k + 1` edges, but the operators change the last recorded object in place: here `G_step1[0]` — which was the essential graph
`0 - 2` — ends up with the edge `1 → 2` of the second step. -/
theorem C63_steps_overwritten_violated : ∃ (sc : Fin 3 → Finset (Fin 3) → Int) (R : Result 3 Int), ges sc 1000 1 10 = some R ∧
    R.update1.length = 2 ∧ ∃ G0, R.gStep1[0]? = some G0 ∧ ¬ ∃ D, Essential G0 D ∧ adjCount D = 2 := by
  have h : ∃ R, ges exSc 1000 1 10 = some R := by
    obtain ⟨R, hR, -⟩ := C36_ges_terminates exSc (big := 1000) (by decide) 1
    exact ⟨R, hR 10 (by decide)⟩
  obtain ⟨R, hR⟩ := h
  have key : (ges exSc 1000 1 10).map (fun R => (R.gStep1.map marks, R.update1.length)) =
      some ([[.null, .null, .tail, .null, .null, .tail, .arrow, .arrow, .null],
        [.null, .null, .tail, .null, .null, .tail, .arrow, .arrow, .null]], 2) := by
    set_option maxRecDepth 100000 in decide +kernel
  rw [hR] at key
  simp only [Option.map_some, Option.some.injEq, Prod.mk.injEq] at key
  obtain ⟨k1, k2⟩ := key
  match hg : R.gStep1, k1 with
  | [], k1 => simp at k1
  | G0 :: l, k1 =>
    simp only [List.map_cons, List.cons.injEq] at k1
    have k := k1.1
    simp [marks, List.finRange_succ] at k
    refine ⟨exSc, R, hR, k2, G0, by simp [hg], ?_⟩
    rintro ⟨D, hD, hc⟩
    have a1 : Adj D 0 2 := by
      by_contra h; rw [← hD.null] at h; simp_all
    have a2 : Adj D 1 2 := by
      by_contra h; rw [← hD.null] at h; simp_all
    classical
    unfold adjCount at hc
    have hsub : ({(0, 2), (2, 0), (1, 2)} : Finset (Fin 3 × Fin 3)) ⊆ Finset.univ.filter fun p : Fin 3 × Fin 3 => Adj D p.1 p.2 := by
      intro p hp
      rw [Finset.mem_filter]
      refine ⟨Finset.mem_univ _, ?_⟩
      simp only [Finset.mem_insert, Finset.mem_singleton] at hp
      rcases hp with rfl | rfl | rfl
      · exact a1
      · exact a1.symm
      · exact a2
    have := Finset.card_le_card hsub
    rw [hc] at this
    exact absurd this (by decide)

end Ges
end CL
