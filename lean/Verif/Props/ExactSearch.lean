import Verif.Proofs.AStar
import Verif.Proofs.DPSearch
import Mathlib.Data.List.Sort
import Mathlib.Data.Finset.Max

/-!
# C31–C35: exact score-based search
-/
namespace CL
namespace Exact
open Spec
variable {d : Nat} {K : Type} [AddCommGroup K] [LinearOrder K] [IsOrderedAddMonoid K]

/-- `order i` lists the possible parents of `i` allowed by the super graph, each once. -/
def Lists (sup : Fin d → Fin d → Bool) (order : Fin d → List (Fin d)) : Prop :=
  ∀ i, (order i).Nodup ∧ ∀ j, j ∈ order i ↔ sup j i = true

/-- The parent sets written into the returned matrix: `dag_est[j, i] = 1` makes `j` a parent of `i`. -/
def parentsOf (dag : Fin d → Fin d → Bool) : Fin d → Finset (Fin d) := fun i => Finset.univ.filter fun j => dag j i = true

theorem pgs_inv {sup incl : Fin d → Fin d → Bool} {order : Fin d → List (Fin d)} (ho : Lists sup order)
    (score : Fin d → Finset (Fin d) → K) (maxPar : Nat) (i : Fin d) :
    PGInv (score i) (fun S => (∀ v ∈ S, sup v i = true) ∧ S.card ≤ maxPar ∧ ∀ j, incl j i = true → j ∈ S)
      (fun S => (∀ v ∈ S, sup v i = true) ∧ S.card ≤ maxPar ∧ ∀ j, incl j i = true → j ∈ S)
      (parentGraphs score maxPar order incl i) := by
  have h := genParentGraph_inv (score i) maxPar (ho i).1 (Finset.univ.filter fun j => incl j i = true)
  have hE : ∀ S, Adm (order i) maxPar (Finset.univ.filter fun j => incl j i = true) S ↔
      ((∀ v ∈ S, sup v i = true) ∧ S.card ≤ maxPar ∧ ∀ j, incl j i = true → j ∈ S) := by
    intro S
    unfold Adm
    constructor
    · rintro ⟨h1, h2, h3⟩
      exact ⟨fun v hv => ((ho i).2 v).1 (h1 v hv), h2, fun j hj => h3 (by simp [hj])⟩
    · rintro ⟨h1, h2, h3⟩
      exact ⟨fun v hv => ((ho i).2 v).2 (h1 v hv), h2, fun j hj => h3 j (by simpa using hj)⟩
  exact ⟨h.sorted, fun e he => ⟨(h.sc e he).1, (hE _).1 (h.sc e he).2⟩, fun S hS => h.cover S ((hE S).2 hS)⟩

theorem pgs_sorted {sup incl : Fin d → Fin d → Bool} {order : Fin d → List (Fin d)} (ho : Lists sup order)
    (score : Fin d → Finset (Fin d) → K) (maxPar : Nat) : Sorted (parentGraphs score maxPar order incl) :=
  fun i => (pgs_inv (incl := incl) ho score maxPar i).sorted

/-- **C31.** Querying the parent graph of `i` with candidates `U`: either no admissible parent set lies in `U` and the answer
is `(None, INF)`, or the answer is an admissible subset of `U` with its score, and no admissible subset of `U` is better. -/
theorem C31_query_best {sup incl : Fin d → Fin d → Bool} {order : Fin d → List (Fin d)} (ho : Lists sup order)
    (score : Fin d → Finset (Fin d) → K) (maxPar : Nat) (i : Fin d) (U : Finset (Fin d)) :
    let ok : Finset (Fin d) → Prop := fun S =>
      S ⊆ U ∧ (∀ v ∈ S, sup v i = true) ∧ S.card ≤ maxPar ∧ ∀ j, incl j i = true → j ∈ S
    (query (parentGraphs score maxPar order incl i) U = (none, ⊤) ∧ ∀ S, ¬ ok S) ∨
    ∃ S, query (parentGraphs score maxPar order incl i) U = (some S, (score i S : WithTop K)) ∧ ok S ∧
      ∀ T, ok T → score i S ≤ score i T := by
  intro ok
  have hI := pgs_inv (incl := incl) ho score maxPar i
  rcases query_spec hI.sorted U with ⟨h1, h2⟩ | ⟨e, e1, e2, e3, e4⟩
  · left
    refine ⟨h1, fun S hS => ?_⟩
    obtain ⟨e, he, hes, -⟩ := hI.cover S hS.2
    exact h2 e he (hes.trans hS.1)
  · right
    refine ⟨e.1, by rw [e2, (hI.sc e e1).1], ⟨e3, (hI.sc e e1).2⟩, fun T hT => ?_⟩
    obtain ⟨e', he', hes, hle⟩ := hI.cover T hT.2
    rw [← (hI.sc e e1).1]
    exact (e4 e' he' (hes.trans hT.1)).trans hle

/-- A realized ordering that no ordering beats is an optimal DAG. -/
theorem optimal_of_real {sup incl : Fin d → Fin d → Bool} {order : Fin d → List (Fin d)} (ho : Lists sup order)
    (score : Fin d → Finset (Fin d) → K) (maxPar : Nat) (hex : ∃ pa, AdmissibleDag sup incl maxPar pa)
    {s : Structs d} {g : WithTop K} (hr : Real (parentGraphs score maxPar order incl) Finset.univ s g)
    (hmin : ∀ l0, Completion ∅ l0 → g ≤ cost (parentGraphs score maxPar order incl) ∅ l0) :
    OptimalDag score sup incl maxPar (parentsOf (toMatrix s)) ∧
      g = ((totalScore score (parentsOf (toMatrix s)) : K) : WithTop K) := by
  have hs := pgs_sorted (incl := incl) ho score maxPar
  have hle : ∀ pa', AdmissibleDag sup incl maxPar pa' → g ≤ ((totalScore score pa' : K) : WithTop K) := by
    intro pa' hpa
    obtain ⟨l, hl, hc⟩ := exists_order hs (score := score) hpa.acyclic (fun i =>
      (pgs_inv (incl := incl) ho score maxPar i).cover (pa' i) ⟨hpa.within i, hpa.bound i, hpa.contains i⟩)
      (Finset.card (∅ᶜ : Finset (Fin d))) ∅ rfl (by simp)
    refine (hmin l hl).trans (hc.trans (le_of_eq ?_))
    simp [totalScore]
  obtain ⟨pa0, hpa0⟩ := hex
  have hg : g ≠ ⊤ := fun hh => by
    have := hle pa0 hpa0
    rw [hh] at this
    simp at this
  obtain ⟨pa, p1, p2, r, p3⟩ := hr.dag hs (score := score) (fun i e he => ((pgs_inv (incl := incl) ho score maxPar i).sc e he).1) hg
  have hpa : parentsOf (toMatrix s) = pa := by
    funext i
    ext j
    simp [parentsOf, toMatrix, (p1 i (Finset.mem_univ i)).1]
  have hg2 : g = ((totalScore score pa : K) : WithTop K) := p2
  rw [hpa]
  refine ⟨⟨?_, fun pa' hpa' => ?_⟩, hg2⟩
  · have hsc : ∀ i, _ := fun i => ((pgs_inv (incl := incl) ho score maxPar i).sc _ (p1 i (Finset.mem_univ i)).2).2
    exact ⟨fun i => (hsc i).1, fun i => (hsc i).2.2, fun i => (hsc i).2.1,
      acyclic_of_rank r fun a b hab => ((p3 b (Finset.mem_univ b)).2 a hab).2⟩
  · have := hle pa' hpa'
    rw [hg2] at this
    exact WithTop.coe_le_coe.1 this

/-- **C32.** The dynamic program, with or without path extension, returns an optimal DAG (whenever an admissible DAG
exists), for every correct shortest-path routine. -/
theorem C32_dp_optimal (sp : ShortestPath d K) {sup incl : Fin d → Fin d → Bool} {order : Fin d → List (Fin d)}
    (ho : Lists sup order) (score : Fin d → Finset (Fin d) → K) (maxPar : Nat)
    (hex : ∃ pa, AdmissibleDag sup incl maxPar pa) (ext : Bool) :
    ∃ s, dp sp (parentGraphs score maxPar order incl) ext = some s ∧
      OptimalDag score sup incl maxPar (parentsOf (toMatrix s)) := by
  obtain ⟨s, g, h1, h2, h3⟩ := dp_spec sp (pgs_sorted (incl := incl) ho score maxPar) ext
  exact ⟨s, h1, (optimal_of_real ho score maxPar hex h2 h3).1⟩

/-- **C33.** A* with the simple heuristic, with or without path extension, terminates and returns an optimal DAG. -/
theorem C33_astar_optimal (Q : PQ.HeapQ (Finset (Fin d)) (Structs d) (WithTop K)) {sup incl : Fin d → Fin d → Bool}
    {order : Fin d → List (Fin d)} (ho : Lists sup order) (score : Fin d → Finset (Fin d) → K) (maxPar : Nat)
    (hex : ∃ pa, AdmissibleDag sup incl maxPar pa) (ext : Bool) :
    let pgs := parentGraphs score maxPar order incl
    ∃ f0, ∀ f, f0 ≤ f → ∃ s, astar Q pgs ext (simpleH pgs) f = some s ∧
      OptimalDag score sup incl maxPar (parentsOf (toMatrix s)) := by
  intro pgs
  have hs := pgs_sorted (incl := incl) ho score maxPar
  obtain ⟨f0, h0⟩ := astar_spec Q hs ext (simpleH pgs)
  refine ⟨f0, fun f hf => ?_⟩
  obtain ⟨s, g, h1, h2, h3⟩ := h0 f hf
  exact ⟨s, h1, (optimal_of_real ho score maxPar hex h2
    (h3 (simpleH_univ pgs) (fun U l hl => simpleH_le hs hl))).1⟩

/-- Without required edges the empty graph is admissible, so the hypothesis of C32 and C33 holds. -/
theorem admissible_empty (sup : Fin d → Fin d → Bool) (maxPar : Nat) :
    AdmissibleDag sup (fun _ _ => false) maxPar (fun _ => ∅) :=
  ⟨by simp, by simp, by simp, acyclic_of_rank (fun _ => 0) (by simp)⟩

/-- With required edges, they are admissible themselves if they form a DAG inside the super graph and within the bound. -/
theorem admissible_incl {sup incl : Fin d → Fin d → Bool} {maxPar : Nat} (h1 : ∀ i j, incl j i = true → sup j i = true)
    (h2 : ∀ i, (parentsOf incl i).card ≤ maxPar) (h3 : Acyclic fun j i => incl j i = true) :
    AdmissibleDag sup incl maxPar (parentsOf incl) := by
  refine ⟨fun i j hj => h1 i j (by simpa [parentsOf] using hj), fun i j hj => by simp [parentsOf, hj], h2, ?_⟩
  intro x hx
  refine h3 x (Relation.TransGen.mono (fun a b hab => ?_) x x hx)
  simpa [parentsOf] using hab

/-- **C34** (what is true). Whatever heuristic is used — in particular the k-cycle heuristic — A* terminates and returns
an admissible DAG when no edges are required. Missing: its score is not minimal in general, `C34_kcycle_violated`. -/
theorem C34_kcycle_admissible_partial (Q : PQ.HeapQ (Finset (Fin d)) (Structs d) (WithTop K)) {sup : Fin d → Fin d → Bool}
    {order : Fin d → List (Fin d)} (ho : Lists sup order) (score : Fin d → Finset (Fin d) → K) (maxPar : Nat)
    (ext : Bool) (k : Nat) :
    let pgs := parentGraphs score maxPar order (fun _ _ => false)
    ∃ f0, ∀ f, f0 ≤ f → ∃ s, astar Q pgs ext (dynamicH (createPD pgs k)) f = some s ∧
      AdmissibleDag sup (fun _ _ => false) maxPar (parentsOf (toMatrix s)) := by
  intro pgs
  have hs := pgs_sorted (incl := fun _ _ => false) ho score maxPar
  obtain ⟨f0, h0⟩ := astar_spec Q hs ext (dynamicH (createPD pgs k))
  refine ⟨f0, fun f hf => ?_⟩
  obtain ⟨s, g, h1, hr, -⟩ := h0 f hf
  refine ⟨s, h1, ?_⟩
  have hg : g ≠ ⊤ := by
    have : ∀ U s g, Real pgs U s g → g ≠ ⊤ := by
      intro U s g h
      induction h with
      | nil => simp
      | @snoc U s g s' i _ _ _ _ ih =>
        have hq := C31_query_best (incl := fun _ _ => false) ho score maxPar i U
        rcases hq with ⟨-, hq⟩ | ⟨S, hq, -⟩
        · exact absurd ⟨Finset.empty_subset U, by simp⟩ (hq ∅)
        · have hq' : query (pgs i) U = (some S, (score i S : WithTop K)) := hq
          rw [hq']
          simpa using ih
    exact this _ _ _ hr
  obtain ⟨pa, p1, p2, r, p3⟩ := hr.dag hs (score := score)
    (fun i e he => ((pgs_inv (incl := fun _ _ => false) ho score maxPar i).sc e he).1) hg
  have hpa : parentsOf (toMatrix s) = pa := by
    funext i
    ext j
    simp [parentsOf, toMatrix, (p1 i (Finset.mem_univ i)).1]
  rw [hpa]
  have hsc : ∀ i, _ := fun i => ((pgs_inv (incl := fun _ _ => false) ho score maxPar i).sc _ (p1 i (Finset.mem_univ i)).2).2
  exact ⟨fun i => (hsc i).1, fun i => (hsc i).2.2, fun i => (hsc i).2.1,
    acyclic_of_rank r fun a b hab => ((p3 b (Finset.mem_univ b)).2 a hab).2⟩

/-- A* with any heuristic that is 0 at the goal and never over-estimates the remaining cost is optimal (this is what the
k-cycle heuristic would have to satisfy): the cost of completing `U` is measured by the DAGs in which `U` is ancestral. -/
theorem C33_any_admissible_heuristic (Q : PQ.HeapQ (Finset (Fin d)) (Structs d) (WithTop K))
    {sup incl : Fin d → Fin d → Bool} {order : Fin d → List (Fin d)} (ho : Lists sup order)
    (score : Fin d → Finset (Fin d) → K) (maxPar : Nat) (hex : ∃ pa, AdmissibleDag sup incl maxPar pa) (ext : Bool)
    (h : Finset (Fin d) → WithTop K) (hgoal : h Finset.univ = 0)
    (hadm : ∀ U l, Completion U l → h U ≤ cost (parentGraphs score maxPar order incl) U l) :
    ∃ f0, ∀ f, f0 ≤ f → ∃ s, astar Q (parentGraphs score maxPar order incl) ext h f = some s ∧
      OptimalDag score sup incl maxPar (parentsOf (toMatrix s)) := by
  obtain ⟨f0, h0⟩ := astar_spec Q (pgs_sorted (incl := incl) ho score maxPar) ext h
  refine ⟨f0, fun f hf => ?_⟩
  obtain ⟨s, g, h1, h2, h3⟩ := h0 f hf
  exact ⟨s, h1, (optimal_of_real ho score maxPar hex h2 (h3 hgoal hadm)).1⟩

/-! ### C35 -/

/-- `U` is closed under the parents `pa` -/
def Closed (pa : Fin d → Finset (Fin d)) (U : Finset (Fin d)) : Prop := ∀ i ∈ U, pa i ⊆ U

theorem acyclic_set {pa : Fin d → Finset (Fin d)} (hac : Acyclic fun j i => j ∈ pa i) {U : Finset (Fin d)}
    (hU : Closed pa U) {i : Fin d} (hi : i ∉ U) {S : Finset (Fin d)} (hS : S ⊆ U) :
    Acyclic fun j k => j ∈ (if k = i then S else pa k) := by
  have back : ∀ a b, Relation.TransGen (fun j k => j ∈ (if k = i then S else pa k)) a b → b ∈ U → a ∈ U := by
    intro a b hab
    induction hab with
    | single h =>
      intro hb
      rw [if_neg (by rintro rfl; exact hi hb)] at h
      exact hU _ hb h
    | tail _ h ih =>
      intro hb
      rw [if_neg (by rintro rfl; exact hi hb)] at h
      exact ih (hU _ hb h)
  have hii : ∀ a, Relation.TransGen (fun j k => j ∈ (if k = i then S else pa k)) a i → a ∈ U := by
    intro a h
    rcases (Relation.TransGen.tail'_iff).1 h with ⟨c, hac, hci⟩
    rw [if_pos rfl] at hci
    rcases (Relation.reflTransGen_iff_eq_or_transGen).1 hac with rfl | h2
    · exact hS hci
    · exact back _ _ h2 (hS hci)
  have avoid : ∀ a b, Relation.TransGen (fun j k => j ∈ (if k = i then S else pa k)) a b →
      Relation.TransGen (fun j k => j ∈ pa k) a b ∨
        (Relation.TransGen (fun j k => j ∈ (if k = i then S else pa k)) a i ∧
          Relation.ReflTransGen (fun j k => j ∈ (if k = i then S else pa k)) i b) := by
    intro a b hab
    induction hab with
    | @single b h =>
      by_cases hb : b = i
      · subst hb; exact Or.inr ⟨.single h, .refl⟩
      · exact Or.inl (.single (by rwa [if_neg hb] at h))
    | @tail b c hab h ih =>
      by_cases hc : c = i
      · subst hc; exact Or.inr ⟨hab.tail h, .refl⟩
      · rcases ih with ih | ⟨i1, i2⟩
        · exact Or.inl (ih.tail (by rwa [if_neg hc] at h))
        · exact Or.inr ⟨i1, i2.tail h⟩
  intro x hx
  rcases avoid x x hx with h | ⟨h1, h2⟩
  · exact hac x h
  · rcases (Relation.reflTransGen_iff_eq_or_transGen).1 h2 with rfl | h3
    · exact hi (hii _ h1)
    · exact hi (hii _ (h3.trans h1))

/-- **C35.** At every node `(U, structures, g)` path extension moves to a larger set without losing the optimum: every
admissible DAG in which `U` is closed under parents can be changed, without increasing its cost `g + (scores outside U)`,
into an admissible DAG in which the extended set is closed under parents and whose cost is counted from the extended
node. Placed structures are kept. -/
theorem C35_path_extension {sup incl : Fin d → Fin d → Bool} {order : Fin d → List (Fin d)} (ho : Lists sup order)
    (score : Fin d → Finset (Fin d) → K) (maxPar : Nat) (U : Finset (Fin d)) (s : Structs d) (g : WithTop K) :
    let r := pathExt (parentGraphs score maxPar order incl) (U, s, g)
    U ⊆ r.1 ∧ (∀ i ∈ U, r.2.1 i = s i) ∧
    ∀ pa, AdmissibleDag sup incl maxPar pa → Closed pa U →
      ∃ pa', AdmissibleDag sup incl maxPar pa' ∧ Closed pa' r.1 ∧ (∀ i ∈ U, pa' i = pa i) ∧
        (∀ i ∈ r.1, i ∉ U → r.2.1 i = some (pa' i)) ∧
        r.2.2 + ((∑ i ∈ r.1ᶜ, score i (pa' i) : K) : WithTop K) ≤ g + ((∑ i ∈ Uᶜ, score i (pa i) : K) : WithTop K) := by
  have key : ∀ f U s g, U ⊆ (pathExtLoop (parentGraphs score maxPar order incl) f (U, s, g)).1 ∧
      (∀ i ∈ U, (pathExtLoop (parentGraphs score maxPar order incl) f (U, s, g)).2.1 i = s i) ∧
      ∀ pa, AdmissibleDag sup incl maxPar pa → Closed pa U →
      ∃ pa', AdmissibleDag sup incl maxPar pa' ∧
        Closed pa' (pathExtLoop (parentGraphs score maxPar order incl) f (U, s, g)).1 ∧ (∀ i ∈ U, pa' i = pa i) ∧
        (∀ i ∈ (pathExtLoop (parentGraphs score maxPar order incl) f (U, s, g)).1, i ∉ U →
          (pathExtLoop (parentGraphs score maxPar order incl) f (U, s, g)).2.1 i = some (pa' i)) ∧
        (pathExtLoop (parentGraphs score maxPar order incl) f (U, s, g)).2.2 +
          ((∑ i ∈ (pathExtLoop (parentGraphs score maxPar order incl) f (U, s, g)).1ᶜ, score i (pa' i) : K) : WithTop K) ≤
          g + ((∑ i ∈ Uᶜ, score i (pa i) : K) : WithTop K) := by
    intro f
    induction f with
    | zero =>
      intro U s g
      exact ⟨Finset.Subset.refl _, fun _ _ => rfl, fun pa h1 h2 =>
        ⟨pa, h1, h2, fun _ _ => rfl, fun i h1 h2 => absurd h1 h2, le_refl _⟩⟩
    | succ f ih =>
      intro U s g
      simp only [pathExtLoop]
      cases hfind : (outSet U).find? fun i => decide ((query (parentGraphs score maxPar order incl i) U).2 =
          headScore (parentGraphs score maxPar order incl i)) with
      | none =>
        simp only [Option.elim_none]
        exact ⟨Finset.Subset.refl _, fun _ _ => trivial, fun pa h1 h2 =>
          ⟨pa, h1, h2, fun _ _ => rfl, fun i h1 h2 => absurd h1 h2, le_refl _⟩⟩
      | some i =>
        simp only [Option.elim_some]
        have hi : i ∉ U := mem_outSet.1 (List.mem_of_find?_eq_some hfind)
        have hq : (query (parentGraphs score maxPar order incl i) U).2 = headScore (parentGraphs score maxPar order incl i) := by
          have := List.find?_some hfind
          simpa using this
        obtain ⟨h1, h2, h3⟩ := ih (insert i U) (setStruct s i (query (parentGraphs score maxPar order incl i) U).1)
          (g + headScore (parentGraphs score maxPar order incl i))
        have hI := pgs_inv (incl := incl) ho score maxPar i
        refine ⟨(Finset.subset_insert i U).trans h1, fun j hj => ?_, fun pa hpa hU => ?_⟩
        · rw [h2 j (Finset.mem_insert_of_mem hj)]
          have : j ≠ i := fun hh => hi (hh ▸ hj)
          simp [setStruct, this]
        · -- the head of the parent graph is finite and its structure lies in `U`
          rcases C31_query_best (incl := incl) ho score maxPar i U with ⟨hn, -⟩ | ⟨S, hS, ⟨s1, s2, s3, s4⟩, -⟩
          · exfalso
            rw [hn] at hq
            obtain ⟨e, he, he1, -⟩ := hI.cover (pa i) ⟨hpa.within i, hpa.bound i, hpa.contains i⟩
            have := (headScore_le hI.sorted Finset.univ).trans (query_le hI.sorted he (Finset.subset_univ _))
            rw [← hq] at this
            simp at this
          · have hsc : score i S ≤ score i (pa i) := by
              obtain ⟨e, he, he1, he2⟩ := hI.cover (pa i) ⟨hpa.within i, hpa.bound i, hpa.contains i⟩
              have := (headScore_le hI.sorted Finset.univ).trans (query_le hI.sorted he (Finset.subset_univ _))
              rw [← hq, hS] at this
              exact (WithTop.coe_le_coe.1 this).trans he2
            have hU' : Closed (fun k => if k = i then S else pa k) (insert i U) := by
              intro k hk
              dsimp only
              split
              · exact s1.trans (Finset.subset_insert _ _)
              · rename_i hki
                have hk' : k ∈ U := (Finset.mem_insert.1 hk).resolve_left hki
                exact (hU k hk').trans (Finset.subset_insert _ _)
            have hadm' : AdmissibleDag sup incl maxPar (fun k => if k = i then S else pa k) := by
              refine ⟨fun k j hj => ?_, fun k j hj => ?_, fun k => ?_, acyclic_set hpa.acyclic hU hi s1⟩
              · split at hj
                · rename_i hk; subst hk; exact s2 j hj
                · exact hpa.within k j hj
              · split
                · rename_i hk; subst hk; exact s4 j hj
                · exact hpa.contains k j hj
              · split
                · exact s3
                · exact hpa.bound k
            obtain ⟨pa', a1, a2, a3, a4, a5⟩ := h3 _ hadm' hU'
            refine ⟨pa', a1, a2, fun j hj => ?_, fun j hj hjU => ?_, a5.trans ?_⟩
            · rw [a3 j (Finset.mem_insert_of_mem hj)]
              exact if_neg (by rintro rfl; exact hi hj)
            · by_cases hji : j = i
              · subst hji
                rw [h2 j (Finset.mem_insert_self _ _), a3 j (Finset.mem_insert_self _ _)]
                simp [setStruct, hS]
              · exact a4 j hj (by simp [hji, hjU])
            · have hcompl : (insert i U)ᶜ = (Uᶜ).erase i := by ext w; simp
              have hic : i ∈ Uᶜ := by simpa using hi
              rw [← hq, hS, add_assoc, ← WithTop.coe_add, hcompl]
              refine add_le_add_right (WithTop.coe_le_coe.2 ?_) g
              rw [← Finset.add_sum_erase _ _ hic]
              refine add_le_add hsc (le_of_eq (Finset.sum_congr rfl fun k hk => ?_))
              rw [if_neg (Finset.ne_of_mem_erase hk)]
  exact key d U s g

/-- **C35** (both searches). Turning path extension on or off does not change the score of the result. -/
theorem C35_same_score (sp : ShortestPath d K) (Q : PQ.HeapQ (Finset (Fin d)) (Structs d) (WithTop K))
    {sup incl : Fin d → Fin d → Bool} {order : Fin d → List (Fin d)} (ho : Lists sup order)
    (score : Fin d → Finset (Fin d) → K) (maxPar : Nat) (hex : ∃ pa, AdmissibleDag sup incl maxPar pa) :
    let pgs := parentGraphs score maxPar order incl
    let value : Structs d → K := fun s => totalScore score (parentsOf (toMatrix s))
    ∃ best, (∀ ext, ∃ s, dp sp pgs ext = some s ∧ value s = best) ∧
      ∃ f0, ∀ f, f0 ≤ f → ∀ ext, ∃ s, astar Q pgs ext (simpleH pgs) f = some s ∧ value s = best := by
  intro pgs value
  obtain ⟨s0, h0, hopt⟩ := C32_dp_optimal sp ho score maxPar hex false
  have huniq : ∀ s, OptimalDag score sup incl maxPar (parentsOf (toMatrix s)) → value s = value s0 := fun s hs =>
    le_antisymm (hs.2 _ hopt.1) (hopt.2 _ hs.1)
  refine ⟨value s0, fun ext => ?_, ?_⟩
  · obtain ⟨s, h1, h2⟩ := C32_dp_optimal sp ho score maxPar hex ext
    exact ⟨s, h1, huniq s h2⟩
  · obtain ⟨f1, h1⟩ := C33_astar_optimal Q ho score maxPar hex true
    obtain ⟨f2, h2⟩ := C33_astar_optimal Q ho score maxPar hex false
    refine ⟨max f1 f2, fun f hf ext => ?_⟩
    cases ext with
    | true => obtain ⟨s, h3, h4⟩ := h1 f (le_trans (le_max_left _ _) hf); exact ⟨s, h3, huniq s h4⟩
    | false => obtain ⟨s, h3, h4⟩ := h2 f (le_trans (le_max_right _ _) hf); exact ⟨s, h3, huniq s h4⟩

/-! ### Concrete instances -/

/-- a concrete `heapq`: sorted by weight -/
def sortedQ (A V W : Type) [LinearOrder W] : PQ.HeapQ A V W where
  pop h := match h.insertionSort (fun a b => a.w ≤ b.w) with
    | [] => none
    | e :: t => some (e, t)
  nil := rfl
  spec := by
    intro h hne
    have hp := List.perm_insertionSort (fun a b : PQ.Entry A V W => a.w ≤ b.w) h
    have : Std.Total (fun a b : PQ.Entry A V W => a.w ≤ b.w) := ⟨fun a b => le_total _ _⟩
    have : IsTrans (PQ.Entry A V W) (fun a b => a.w ≤ b.w) := ⟨fun a b c => le_trans⟩
    have hs := List.pairwise_insertionSort (fun a b : PQ.Entry A V W => a.w ≤ b.w) h
    cases hc : h.insertionSort (fun a b => a.w ≤ b.w) with
    | nil => rw [hc] at hp; exact absurd hp.symm.eq_nil hne
    | cons e t =>
      rw [hc] at hp hs
      refine ⟨e, t, by simp only [hc], hp, fun e' he' => ?_⟩
      rcases List.mem_cons.1 (hp.mem_iff.2 he') with rfl | h
      · exact le_refl _
      · exact (List.pairwise_cons.1 hs).1 e' h

/-- three variables, no restriction -/
def fullSup : Fin 3 → Fin 3 → Bool := fun i j => i != j
/-- candidates in increasing order -/
def fullOrder : Fin 3 → List (Fin 3) := fun i => (List.finRange 3).filter (· != i)

theorem fullLists : Lists fullSup fullOrder := by
  intro i
  refine ⟨(List.nodup_finRange 3).filter _, fun j => ?_⟩
  simp [fullOrder, fullSup]

/-- Scores for which the k-cycle heuristic fails. -/
def badScore : Fin 3 → Finset (Fin 3) → Int := fun i S =>
  if i = 0 then (if S = ∅ then -9 else if S = {1} then 3 else if S = {2} then 4 else -9)
  else if i = 1 then (if S = ∅ then 5 else if S = {0} then -1 else if S = {2} then -2 else 9)
  else (if S = ∅ then -6 else if S = {0} then 1 else if S = {1} then -9 else -9)

/-- **C34 is false.** With the default options (`k = 3`, path extension) and these scores A* with the k-cycle heuristic
returns a DAG of total score −17, but the DAG `0 → 1 → 2` scores −19: `compute_dynamic_h` matches the stored patterns (sets
of variables still to be placed) against the variables already placed. -/
theorem C34_kcycle_violated :
    let pgs := parentGraphs badScore 3 fullOrder (fun _ _ => false)
    ∃ s, astar (sortedQ _ _ _) pgs true (dynamicH (createPD pgs 3)) 20 = some s ∧
      totalScore badScore (parentsOf (toMatrix s)) = -17 ∧
      ¬ OptimalDag badScore fullSup (fun _ _ => false) 3 (parentsOf (toMatrix s)) := by
  intro pgs
  have h1 : (astar (sortedQ _ _ _) pgs true (dynamicH (createPD pgs 3)) 20).map
      (fun s => totalScore badScore (parentsOf (toMatrix s))) = some (-17) := by decide +kernel
  cases hs : astar (sortedQ _ _ _) pgs true (dynamicH (createPD pgs 3)) 20 with
  | none => rw [hs] at h1; simp at h1
  | some s =>
    rw [hs] at h1
    simp only [Option.map_some, Option.some.injEq] at h1
    refine ⟨s, rfl, h1, fun ho => ?_⟩
    have := ho.2 (fun i => if i = 0 then ∅ else if i = 1 then {0} else {1}) ⟨by decide, by decide, by decide,
      acyclic_of_rank (fun v => v.val) (by decide)⟩
    rw [h1] at this
    revert this
    decide

/-- `C32`, `C33`: the hypotheses are met by these scores too, with the simple heuristic. -/
example (Q : PQ.HeapQ (Finset (Fin 3)) (Structs 3) (WithTop Int)) : ∃ f s,
    astar Q (parentGraphs badScore 3 fullOrder (fun _ _ => false)) true
      (simpleH (parentGraphs badScore 3 fullOrder (fun _ _ => false))) f = some s ∧
    OptimalDag badScore fullSup (fun _ _ => false) 3 (parentsOf (toMatrix s)) := by
  obtain ⟨f0, h⟩ := C33_astar_optimal Q fullLists badScore 3 ⟨_, admissible_empty (d := 3) _ _⟩ true
  obtain ⟨s, h1, h2⟩ := h f0 (le_refl _)
  exact ⟨f0, s, h1, h2⟩

/-- the model run on that input: value −19 -/
example : (astar (sortedQ _ _ _) (parentGraphs badScore 3 fullOrder (fun _ _ => false)) true
      (simpleH (parentGraphs badScore 3 fullOrder (fun _ _ => false))) 20).map
    (fun s => totalScore badScore (parentsOf (toMatrix s))) = some (-19) := by decide +kernel

/-- `C31`: best parents of 1 among `{0, 2}`, and an infeasible query (required parent 2 not among the candidates). -/
example : query (parentGraphs badScore 3 fullOrder (fun _ _ => false) 1) {0, 2} = (some {2}, ((-2 : Int) : WithTop Int)) := by
  decide +kernel
example : query (parentGraphs badScore 3 fullOrder (fun j i => j == 2 && i == 1) 1) {0} = (none, ⊤) := by decide +kernel

/-- A correct shortest-path routine exists (so `C32` is not vacuous). -/
theorem shortestPath_nonempty : Nonempty (ShortestPath d K) := by
  classical
  have hex : ∀ (og : OG d K) s t, (∀ a b, (og a b).isSome → b.card = a.card + 1) → (∃ p, IsPath og s t p) →
      ∃ p, IsPath og s t p ∧ ∀ q, IsPath og s t q → pathCost og p ≤ pathCost og q := by
    intro og s t hc ⟨p0, hp0⟩
    have hlen : ∀ (p : List (Finset (Fin d))) s, IsPath og s t p → p.length + s.card ≤ d + 1 := by
      intro p
      induction p with
      | nil => rintro s ⟨h, -, -⟩; simp at h
      | cons a p ih =>
        rintro s ⟨h1, h2, h3⟩
        simp only [List.head?_cons, Option.some.injEq] at h1
        subst h1
        cases p with
        | nil =>
          have := Finset.card_le_univ a
          simp at this ⊢; omega
        | cons b p =>
          obtain ⟨h4, h5⟩ := List.isChain_cons_cons.1 h3
          have := ih b ⟨rfl, by simpa using h2, h5⟩
          have := hc a b h4
          simp only [List.length_cons] at *
          omega
    have hfin : {p : List (Finset (Fin d)) | IsPath og s t p}.Finite :=
      (List.finite_length_le (Finset (Fin d)) (d + 1)).subset fun p hp => by
        have := hlen p s hp
        simp only [Set.mem_setOf_eq]; omega
    obtain ⟨p, hp, hmin⟩ := hfin.toFinset.exists_min_image (pathCost og) ⟨p0, hfin.mem_toFinset.2 hp0⟩
    exact ⟨p, hfin.mem_toFinset.1 hp, fun q hq => hmin q (hfin.mem_toFinset.2 hq)⟩
  refine ⟨⟨fun og s t => if h : (∀ a b, (og a b).isSome → b.card = a.card + 1) ∧ (∃ p, IsPath og s t p) then
    some (hex og s t h.1 h.2).choose else none, fun og s t h1 h2 => ?_⟩⟩
  exact ⟨(hex og s t h1 h2).choose, dif_pos ⟨h1, h2⟩, (hex og s t h1 h2).choose_spec⟩

/-- `C32` on the same scores. -/
example (sp : ShortestPath 3 Int) : ∃ s, dp sp (parentGraphs badScore 3 fullOrder (fun _ _ => false)) true = some s ∧
    OptimalDag badScore fullSup (fun _ _ => false) 3 (parentsOf (toMatrix s)) :=
  C32_dp_optimal sp fullLists badScore 3 ⟨_, admissible_empty (d := 3) _ _⟩ true

end Exact
end CL
