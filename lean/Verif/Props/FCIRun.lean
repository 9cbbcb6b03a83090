import Verif.Proofs.FciFuel

/-!
# C27, C28, C66, C67: FCI orientation rules and the orientation loop
-/
namespace CL
open GG Relation
variable {n : Nat}

/-- Between `G` and `H` (over the same nodes) no adjacency changed, tails and arrowheads stayed, and every mark that changed was a
circle and is now a tail or an arrowhead. `get_endpoint(a, b)` is the mark at `b`. -/
def GG.OnlyCirclesRefined (G H : GG n) : Prop := ∀ a b, H.isAdj a b = G.isAdj a b ∧
  (G.getEndpoint a b = some .tail → H.getEndpoint a b = some .tail) ∧
  (G.getEndpoint a b = some .arrow → H.getEndpoint a b = some .arrow) ∧
  (H.getEndpoint a b ≠ G.getEndpoint a b → G.getEndpoint a b = some .circle ∧
    (H.getEndpoint a b = some .tail ∨ H.getEndpoint a b = some .arrow))

/-- The number of circle marks `get_endpoint` reports. -/
def GG.numCircles (G : GG n) : Nat :=
  (Finset.univ.filter fun p : Fin n × Fin n => G.getEndpoint p.1 p.2 = some .circle).card

namespace Fci

theorem getEndpoint_iff {G : GG n} (h : G.Pag) {a b : Fin n} {m : Mark} : G.getEndpoint a b = some m ↔ m ≠ .null ∧ G.g b a = m := by
  have := ep_iff h (a := a) (b := b) (m := m)
  unfold ep at this
  simpa using this

theorem getEndpoint_eq' {G : GG n} (h : G.Pag) (a b : Fin n) :
    G.getEndpoint a b = if G.g b a = .null then none else some (G.g b a) := by
  split
  · rename_i e
    cases hm : G.getEndpoint a b with
    | none => rfl
    | some m => have := (getEndpoint_iff h).1 hm; rw [e] at this; exact absurd this.2.symm this.1
  · rename_i e
    exact (getEndpoint_iff h).2 ⟨e, rfl⟩

theorem Refine.only {G H : GG n} (h : G.Pag) (r : Refine G H) : G.OnlyCirclesRefined H := by
  intro a b
  have hH := r.pag h
  have e1 := r.step b a
  have e2 := r.step a b
  refine ⟨?_, ?_, ?_, ?_⟩
  · rw [Bool.eq_iff_iff, isAdj_iff h, isAdj_iff hH, ne_eq, ne_eq, not_iff_not]; exact r.keep.null a b
  · rw [getEndpoint_iff h, getEndpoint_iff hH]; grind
  · rw [getEndpoint_iff h, getEndpoint_iff hH]; grind
  · rw [getEndpoint_eq' h, getEndpoint_eq' hH]; grind

theorem circles_eq {G : GG n} (h : G.Pag) : G.numCircles = circles G := by
  unfold GG.numCircles circles
  apply Finset.card_bij (fun p _ => (p.2, p.1))
  · intro p hp
    simp only [Finset.mem_filter, Finset.mem_univ, true_and] at hp ⊢
    exact ((getEndpoint_iff h).1 hp).2
  · rintro ⟨a, b⟩ _ ⟨c, d⟩ _ e
    simp at e; simp [e]
  · rintro ⟨a, b⟩ hp
    simp only [Finset.mem_filter, Finset.mem_univ, true_and] at hp
    exact ⟨(b, a), by simp only [Finset.mem_filter, Finset.mem_univ, true_and]; exact (getEndpoint_iff h).2 ⟨by simp, hp⟩, rfl⟩

theorem Keep.circles_le {G H : GG n} (h : Keep G H) : circles H ≤ circles G := by
  unfold circles
  apply Finset.card_le_card
  intro p hp
  simp only [Finset.mem_filter, Finset.mem_univ, true_and] at hp ⊢
  exact h.circ _ _ hp

theorem StepK.fewer {G : GG n} {s : GG n × Bool} (h : G.Pag) (r : StepK (G, false) s) : s.1.Pag ∧ s.1.numCircles ≤ G.numCircles ∧
    (s.2 = true → s.1.numCircles < G.numCircles) := by
  have hp := r.keep.pag h
  rw [circles_eq h, circles_eq hp]
  refine ⟨hp, r.keep.circles_le, fun hf => ?_⟩
  rcases r.flag hf with e | ⟨a, b, h1, h2⟩
  · simp at e
  · exact r.keep.circles_lt h1 h2

theorem mainLoop_mono {env : FciEnv n} {ss : SSet n} : ∀ (f k : Nat) (first : Bool) (G H : GG n),
    mainLoop env ss f first G = some H → mainLoop env ss (f + k) first G = some H
  | 0, _, _, _, _, h => by simp [mainLoop] at h
  | f + 1, k, first, G, H, h => by
    rw [show f + 1 + k = (f + k) + 1 by omega]
    simp only [mainLoop] at h ⊢
    split at h
    · rename_i hc; rw [if_pos hc]; exact mainLoop_mono f k _ _ _ h
    · rename_i hc; rw [if_neg hc]; exact h

end Fci

open Fci

/-! ## C27 -/

/-- **C27.** On every mixed graph (symmetric adjacency; tails, arrowheads and circles), for every separating-set table, every
background knowledge and every order of sets, each of the rules R1/R2, R3, R5-R10 only replaces circles. -/
theorem C27_rules_only_refine_circles (env : FciEnv n) (ss : SSet n) {G : GG n} (h : G.Pag) (flag : Bool) :
    G.OnlyCirclesRefined (r1r2 env.k (G, flag)).1 ∧ G.OnlyCirclesRefined (r3 env.k ss (G, flag)).1 ∧
    G.OnlyCirclesRefined (r5 (G, flag)).1 ∧ G.OnlyCirclesRefined (r6 (G, flag)).1 ∧ G.OnlyCirclesRefined (r7 (G, flag)).1 ∧
    G.OnlyCirclesRefined (r8 (G, flag)).1 ∧ G.OnlyCirclesRefined (r9 env (G, flag)).1 ∧ G.OnlyCirclesRefined (r10 env (G, flag)).1 :=
  ⟨(r1r2_step (st := (G, flag)) h).ref.only h, (r3_step (st := (G, flag)) h).ref.only h, (r5_step (st := (G, flag)) h).ref.only h,
    (r6_step (st := (G, flag)) h).ref.only h, (r7_step (st := (G, flag)) h).ref.only h, (r8_step (st := (G, flag)) h).ref.only h,
    (r9_step (st := (G, flag)) h).ref.only h, (r10_step (st := (G, flag)) h).ref.only h⟩

/-- **C27.** The graphs `fci` applies the rules to are of that kind: the graph the orientation phase starts from, and the result of
every rule. -/
theorem C27_every_rule_graph_qualifies (env : FciEnv n) (depth : Option Nat) :
    (∃ s, prepare env depth = some s ∧ s.1.Pag) ∧
    ∀ (G : GG n), G.Pag → ∀ (flag : Bool) (ss : SSet n),
      (r1r2 env.k (G, flag)).1.Pag ∧ (r3 env.k ss (G, flag)).1.Pag ∧ (r4 env ss (G, flag)).1.Pag ∧ (r5 (G, flag)).1.Pag ∧
      (r6 (G, flag)).1.Pag ∧ (r7 (G, flag)).1.Pag ∧ (r8 (G, flag)).1.Pag ∧ (r9 env (G, flag)).1.Pag ∧ (r10 env (G, flag)).1.Pag :=
  ⟨prepare_spec env depth, fun _ h _ _ => ⟨(r1r2_step h).ref.pag h, (r3_step h).ref.pag h, (r4_keep h).keep.pag h,
    (r5_step h).ref.pag h, (r6_step h).ref.pag h, (r7_step h).ref.pag h, (r8_step h).ref.pag h, (r9_step h).ref.pag h,
    (r10_step h).ref.pag h⟩⟩

/-! ## C28 -/

/-- **C28.** Whenever a round of rules (R1-R10, with or without R4) reports a change, circles have disappeared; no rule ever adds
one. -/
theorem C28_change_removes_circles (env : FciEnv n) (ss : SSet n) {G : GG n} (h : G.Pag) (first : Bool) :
    (round env ss first G).1.1.numCircles ≤ G.numCircles ∧
    ((round env ss first G).1.2 = true → (round env ss first G).1.1.numCircles < G.numCircles) :=
  (StepK.fewer h (round_keep h)).2

/-- **C28.** The same rule by rule, started with the flag down. -/
theorem C28_each_rule_removes_circles (env : FciEnv n) (ss : SSet n) {G : GG n} (h : G.Pag) :
    ∀ s ∈ [r1r2 env.k (G, false), r3 env.k ss (G, false), r4 env ss (G, false), r5 (G, false), r6 (G, false), r7 (G, false),
      r8 (G, false), r9 env (G, false), r10 env (G, false)],
      s.1.numCircles ≤ G.numCircles ∧ (s.2 = true → s.1.numCircles < G.numCircles) := by
  intro s hs
  have key : StepK (G, false) s := by
    simp only [List.mem_cons, List.not_mem_nil, or_false] at hs
    rcases hs with rfl | rfl | rfl | rfl | rfl | rfl | rfl | rfl | rfl
    · exact (r1r2_step h).toK
    · exact (r3_step h).toK
    · exact r4_keep h
    · exact (r5_step h).toK
    · exact (r6_step h).toStep.toK
    · exact (r7_step h).toStep.toK
    · exact (r8_step h).toStep.toK
    · exact (r9_step h).toStep.toK
    · exact (r10_step h).toStep.toK
  exact (StepK.fewer h key).2

/-- **C28.** The `while change_flag` loop ends on every graph and table, after at most one more round than there are circles. -/
theorem C28_orientation_loop_terminates (env : FciEnv n) (ss : SSet n) (first : Bool) {G : GG n} (h : G.Pag) :
    ∃ H, ∀ rounds, G.numCircles < rounds → mainLoop env ss rounds first G = some H := by
  obtain ⟨H, -, e, -⟩ := mainLoop_some (env := env) (ss := ss) (circles G + 1) first G h (by omega)
  refine ⟨H, fun r hr => ?_⟩
  rw [circles_eq h] at hr
  obtain ⟨k, rfl⟩ : ∃ k, r = circles G + 1 + k := ⟨r - (circles G + 1), by omega⟩
  exact mainLoop_mono _ _ _ _ _ e

/-- **C28.** `fci` returns on every input: every CI test, background knowledge, depth, path bound and order of sets. -/
theorem C28_fci_returns (env : FciEnv n) (depth : Option Nat) : ∃ H, fci env depth = some H ∧ H.Pag := by
  obtain ⟨s, H, first, -, -, e, hp, -⟩ := fci_some env depth
  exact ⟨H, e, hp⟩

/-- **C28.** The queue loops inside the rules end too: with more fuel they give the same answer. -/
theorem C28_inner_loops_terminate (env : FciEnv n) (hk : env.Ok) (ss : SSet n) (G : GG n) (flag : Bool) (a b c d : Fin n) (maxPath : Int)
    (more : Nat) :
    circleLoop a b d (n + 1 + more) ((circleSteps G [a, b] c).foldl (enqueueP [c]) ([], [])) (G, flag) = circlePaths a b c d (G, flag) ∧
    (a ≠ b → ddpLoop env ss G a b c (G.parents c) (n + 1 + more) ⟨[a], [b, a], fun u => if u = a then some b else none, none, 0⟩ =
      ddpLoop env ss G a b c (G.parents c) (n + 1) ⟨[a], [b, a], fun u => if u = a then some b else none, none, 0⟩) ∧
    pdLoop G a b maxPath (n * n + 1 + more) (pdStart env G a b) = pdLoop G a b maxPath (n * n + 1) (pdStart env G a b) :=
  ⟨circlePaths_fuel a b c d (G, flag) more, fun hab => ddpOrient_fuel env ss G hab c more, possibleDsep_fuel hk G a b maxPath more⟩

/-! ## C66: the result is closed under the rules -/

/-- **C66.** The returned graph has the adjacencies of the graph after the possible-d-sep step, and applying any of the rules
R1-R3, R5-R10 to it once more (with the table of that run) changes nothing. Missing for the full property: rule R4, and rules R8-R10
are only as complete as their code (see the violated theorems). -/
theorem C66_result_is_fixpoint_partial (env : FciEnv n) (depth : Option Nat) : ∃ s H, prepare env depth = some s ∧
    fci env depth = some H ∧ H.Pag ∧ (∀ a b, H.isAdj a b = s.1.isAdj a b) ∧ r1r2 env.k (H, false) = (H, false) ∧
    r3 env.k s.2 (H, false) = (H, false) ∧ r5 (H, false) = (H, false) ∧ r6 (H, false) = (H, false) ∧ r7 (H, false) = (H, false) ∧
    r8 (H, false) = (H, false) ∧ r9 env (H, false) = (H, false) ∧ r10 env (H, false) = (H, false) := by
  obtain ⟨s, H, first, e1, hs, e2, hp, hk, K, -, -, eK⟩ := fci_some env depth
  obtain ⟨-, q1, q2, -, q⟩ := round_quiet eK
  refine ⟨s, H, e1, e2, hp, fun a b => ?_, q1, q2, q⟩
  rw [Bool.eq_iff_iff, isAdj_iff hs, isAdj_iff hp, ne_eq, ne_eq, not_iff_not]; exact hk.null a b

namespace Fci

/-- A loop of quiet steps that ends with the flag down did nothing at any step. -/
theorem quiet_fold_each {α : Type} {H : GG n} (f : GG n × Bool → α → GG n × Bool) : ∀ (l : List α),
    (∀ u, ∀ x ∈ l, Quiet u (f u x)) → l.foldl f (H, false) = (H, false) → ∀ x ∈ l, f (H, false) x = (H, false)
  | [], _, _ => by simp
  | a :: l, hq, he => by
    rw [List.foldl_cons] at he
    have hrest : Quiet (f (H, false) a) (l.foldl f (f (H, false) a)) :=
      Quiet.rfl.fold f l (fun u x hx => hq u x (List.mem_cons_of_mem _ hx))
    have e1 := hrest (by rw [he])
    rw [he] at e1
    intro x hx
    rcases List.mem_cons.1 hx with rfl | hx
    · exact e1.symm
    · rw [← e1] at he
      exact quiet_fold_each f l (fun u x hx => hq u x (List.mem_cons_of_mem _ hx)) he x hx

theorem quiet_comp {H : GG n} {s t : GG n × Bool} (h1 : Quiet (H, false) s) (h2 : Quiet s t) (e : t = (H, false)) : s = (H, false) := by
  have := h2 (by rw [e])
  exact this.symm.trans e

/-- At a fixpoint of R1 and R2: each of the four calls for each pair of neighbours did nothing. -/
theorem r1r2_fix {k : Know n} {H : GG n} (e : r1r2 k (H, false) = (H, false)) {a b c : Fin n} (ha : a ∈ H.adjacentNodes b)
    (hc : c ∈ H.adjacentNodes b) (hac : a ≠ c) : r1 k (H, false) a b c = (H, false) ∧ r2 k (H, false) a b c = (H, false) := by
  have e1 := quiet_fold_each _ _ (fun u b _ => Quiet.rfl.fold _ _ fun v p _ => r1r2Step_quiet _ v p) e b (List.mem_finRange b)
  have e2 := quiet_fold_each _ _ (fun u p _ => r1r2Step_quiet _ u p) e1
  have key : ∀ p, r1r2Step k b (H, false) p = (H, false) → (r1 k (H, false) p.1 b p.2 = (H, false) ∧ r2 k (H, false) p.1 b p.2 = (H, false)) ∧
      (r1 k (H, false) p.2 b p.1 = (H, false) ∧ r2 k (H, false) p.2 b p.1 = (H, false)) := by
    intro p hp
    unfold r1r2Step at hp
    have h3 := quiet_comp ((((r1_quiet _ _ _ _).trans (r1_quiet _ _ _ _)).trans (r2_quiet _ _ _ _))) (r2_quiet _ _ _ _) hp
    have h2 := quiet_comp ((r1_quiet _ _ _ _).trans (r1_quiet _ _ _ _)) (r2_quiet _ _ _ _) h3
    have h1 := quiet_comp (r1_quiet _ _ _ _) (r1_quiet _ _ _ _) h2
    rw [h1] at h2 h3 hp
    rw [h2] at h3 hp
    rw [h3] at hp
    exact ⟨⟨h1, h3⟩, h2, hp⟩
  rcases pairsOf_complete ha hc hac with hm | hm
  · exact (key _ (e2 _ hm)).1
  · exact (key _ (e2 _ hm)).2

end Fci

/-- **C66, rule R1.** In the returned graph, if `a *→ b o-* c` with `a`, `c` not adjacent, the mark at `c` is a tail (the code does
not orient such an edge); in particular no `a *→ b o-o c` or `a *→ b o→ c` with `a`, `c` not adjacent is left. -/
theorem C66_closed_under_R1 (env : FciEnv n) (depth : Option Nat) {H : GG n} (hH : fci env depth = some H) {a b c : Fin n} (hac : a ≠ c)
    (h1 : H.getEndpoint a b = some .arrow) (h2 : H.getEndpoint c b = some .circle) (h3 : H.isAdj a c = false) :
    H.getEndpoint b c = some .tail := by
  obtain ⟨s, H', e1, e2, hp, -, q, -⟩ := C66_result_is_fixpoint_partial env depth
  rw [hH] at e2; cases e2
  have m1 := (getEndpoint_iff hp).1 h1
  have m2 := (getEndpoint_iff hp).1 h2
  have na : H.g b a ≠ .null := not_null_of_eq m1.2 (by simp)
  have nc : H.g b c ≠ .null := not_null_of_eq m2.2 (by simp)
  have fx := (r1r2_fix q ((mem_adjacentNodes hp).2 (adj_symm hp na)) ((mem_adjacentNodes hp).2 (adj_symm hp nc)) hac).1
  unfold r1 at fx
  have e1' : ep H a b .arrow = true := (ep_iff hp).2 m1
  have e2' : ep H c b .circle = true := (ep_iff hp).2 m2
  simp only [h3, e1', e2', Bool.and_self, if_true] at fx
  have hal : allowed env.k H b c = false := by
    by_contra hc
    simp only [Bool.not_eq_false] at hc
    simp [hc] at fx
  rw [getEndpoint_iff hp]
  refine ⟨by simp, ?_⟩
  have hm := hp.marks c b
  have hn := adj_symm hp nc
  unfold allowed at hal
  have g1 : ep H b c .arrow = decide (H.g c b = .arrow) := by rw [Bool.eq_iff_iff, ep_iff hp]; simp
  have g2 : ep H b c .tail = decide (H.g c b = .tail) := by rw [Bool.eq_iff_iff, ep_iff hp]; simp
  have g3 : ep H b c .circle = decide (H.g c b = .circle) := by rw [Bool.eq_iff_iff, ep_iff hp]; simp
  have g4 : ep H c b .arrow = false := by rw [Bool.eq_false_iff, ne_eq, ep_iff hp]; simp [m2.2]
  have g5 : ep H c b .tail = false := by rw [Bool.eq_false_iff, ne_eq, ep_iff hp]; simp [m2.2]
  rw [g1, g2, g3, g4, g5] at hal
  rcases hm with e | e | e | e
  · exact absurd e hn
  · exact e
  · simp [e] at hal
  · simp [e] at hal

/-- **C66, rule R2.** If `a → b *→ c` or `a *→ b → c` with `a *-o c`, then the knowledge forbids `a → c`. -/
theorem C66_closed_under_R2 (env : FciEnv n) (depth : Option Nat) {H : GG n} (hH : fci env depth = some H) {a b c : Fin n}
    (h1 : H.getEndpoint a b = some .arrow) (h2 : H.getEndpoint b c = some .arrow)
    (h3 : H.getEndpoint b a = some .tail ∨ H.getEndpoint c b = some .tail) (h4 : H.getEndpoint a c = some .circle) :
    env.k.forb a c = true := by
  obtain ⟨s, H', e1, e2, hp, -, q, -⟩ := C66_result_is_fixpoint_partial env depth
  rw [hH] at e2; cases e2
  have m1 := (getEndpoint_iff hp).1 h1
  have m2 := (getEndpoint_iff hp).1 h2
  have m4 := (getEndpoint_iff hp).1 h4
  have na : H.g b a ≠ .null := not_null_of_eq m1.2 (by simp)
  have nc : H.g c b ≠ .null := not_null_of_eq m2.2 (by simp)
  have nac : H.g c a ≠ .null := not_null_of_eq m4.2 (by simp)
  have hac : a ≠ c := (ne_of_adj hp nac).symm
  have fx := (r1r2_fix q ((mem_adjacentNodes hp).2 (adj_symm hp na)) ((mem_adjacentNodes hp).2 nc) hac).2
  unfold r2 at fx
  have a1 : H.isAdj a c = true := (isAdj_iff hp).2 (adj_symm hp nac)
  have e1' : ep H a b .arrow = true := (ep_iff hp).2 m1
  have e2' : ep H b c .arrow = true := (ep_iff hp).2 m2
  have e4' : ep H a c .circle = true := (ep_iff hp).2 m4
  have e3' : (ep H b a .tail || ep H c b .tail) = true := by
    rw [Bool.or_eq_true]
    rcases h3 with h | h
    · exact Or.inl ((ep_iff hp).2 ((getEndpoint_iff hp).1 h))
    · exact Or.inr ((ep_iff hp).2 ((getEndpoint_iff hp).1 h))
  simp only [a1, e1', e2', e3', e4', Bool.and_self, if_true] at fx
  have hal : allowed env.k H a c = false := by
    by_contra hc
    simp only [Bool.not_eq_false] at hc
    simp [hc] at fx
  by_contra hf
  simp only [Bool.not_eq_true] at hf
  have g1 : ep H a c .arrow = false := by rw [Bool.eq_false_iff, ne_eq, ep_iff hp]; simp [m4.2]
  have g2 : ep H a c .tail = false := by rw [Bool.eq_false_iff, ne_eq, ep_iff hp]; simp [m4.2]
  unfold allowed at hal
  simp [g1, g2, hf, e4'] at hal

/-- **C66, rule R6.** No `a — b o-* c` is left. -/
theorem C66_closed_under_R6 (env : FciEnv n) (depth : Option Nat) {H : GG n} (hH : fci env depth = some H) {a b c : Fin n}
    (h1 : H.getEndpoint a b = some .tail) (h2 : H.getEndpoint b a = some .tail) : H.getEndpoint c b ≠ some .circle := by
  intro h3
  obtain ⟨s, H', e1, e2, hp, -, -, -, -, q, -⟩ := C66_result_is_fixpoint_partial env depth
  rw [hH] at e2; cases e2
  have m1 := (getEndpoint_iff hp).1 h1
  have m2 := (getEndpoint_iff hp).1 h2
  have m3 := (getEndpoint_iff hp).1 h3
  have hq : ∀ (u : GG n × Bool) (b : Fin n), Quiet u (r6Node u b) := by
    intro u b
    unfold r6Node
    split
    · exact Quiet.rfl.fold _ _ fun _ _ _ => Quiet.set
    · exact Quiet.rfl
  have fx := quiet_fold_each _ _ (fun u b _ => hq u b) q b (List.mem_finRange b)
  unfold r6Node at fx
  rw [if_pos (by
    rw [List.any_eq_true]
    exact ⟨a, (mem_nodesInto hp (by simp)).2 m1.2, (ep_iff hp).2 m2⟩)] at fx
  have := quiet_fold_each _ _ (fun _ _ _ => Quiet.set) fx c ((mem_nodesInto hp (by simp)).2 m3.2)
  simp at this

/-- **C66, rule R7.** No `a —o b o-* c` with `a`, `c` not adjacent is left. -/
theorem C66_closed_under_R7 (env : FciEnv n) (depth : Option Nat) {H : GG n} (hH : fci env depth = some H) {a b c : Fin n} (hac : a ≠ c)
    (h1 : H.getEndpoint a b = some .circle) (h2 : H.getEndpoint b a = some .tail) (h3 : H.getEndpoint c b = some .circle) :
    H.isAdj a c = true := by
  by_contra h4
  obtain ⟨s, H', e1, e2, hp, -, -, -, -, -, q, -⟩ := C66_result_is_fixpoint_partial env depth
  rw [hH] at e2; cases e2
  have m1 := (getEndpoint_iff hp).1 h1
  have m2 := (getEndpoint_iff hp).1 h2
  have m3 := (getEndpoint_iff hp).1 h3
  have hq : ∀ (b c : Fin n) (u : GG n × Bool) (a : Fin n), Quiet u (r7Step b c u a) := by
    intro b c u a
    unfold r7Step; repeat' split
    all_goals first | exact Quiet.rfl | exact Quiet.set
  have fx := quiet_fold_each _ _ (fun u b _ => Quiet.rfl.fold _ _ fun _ _ _ => Quiet.rfl.fold _ _ fun v a _ => hq _ _ v a) q b (List.mem_finRange b)
  have fx2 := quiet_fold_each _ _ (fun u c _ => Quiet.rfl.fold _ _ fun v a _ => hq _ _ v a) fx c ((mem_nodesInto hp (by simp)).2 m3.2)
  have fx3 := quiet_fold_each _ _ (fun v a _ => hq _ _ v a) fx2 a (by
    rw [List.mem_filter]
    exact ⟨(mem_nodesInto hp (by simp)).2 m1.2, (ep_iff hp).2 m2⟩)
  unfold r7Step at fx3
  rw [if_neg hac, if_neg (by simpa using h4)] at fx3
  simp at fx3

/-- **C66, rule R8, one order only.** For `a` before `c` in the node order, no `a → b → c` or `a —o b → c` with `a o→ c` is left.
Missing: `a` after `c` (see `C66_R8_violated`). -/
theorem C66_closed_under_R8_partial (env : FciEnv n) (depth : Option Nat) {H : GG n} (hH : fci env depth = some H) {a b c : Fin n} (hac : a < c)
    (h1 : H.getEndpoint a b = some .arrow ∨ H.getEndpoint a b = some .circle) (h2 : H.getEndpoint b a = some .tail)
    (h3 : H.getEndpoint b c = some .arrow) (h4 : H.getEndpoint c b = some .tail) (h5 : H.getEndpoint a c = some .arrow) :
    H.getEndpoint c a ≠ some .circle := by
  intro h6
  obtain ⟨s, H', e1, e2, hp, -, -, -, -, -, -, q, -⟩ := C66_result_is_fixpoint_partial env depth
  rw [hH] at e2; cases e2
  have m2 := (getEndpoint_iff hp).1 h2
  have m3 := (getEndpoint_iff hp).1 h3
  have m4 := (getEndpoint_iff hp).1 h4
  have m5 := (getEndpoint_iff hp).1 h5
  have m6 := (getEndpoint_iff hp).1 h6
  have hq : ∀ (b : Fin n) (u : GG n × Bool) (p : Fin n × Fin n), Quiet u (r8Step b u p) := by
    intro b u p
    unfold r8Step
    dsimp only
    split
    · exact Quiet.set
    · exact Quiet.rfl
  have na : H.g a b ≠ .null := not_null_of_eq m2.2 (by simp)
  have nc : H.g c b ≠ .null := not_null_of_eq m3.2 (by simp)
  have fx := quiet_fold_each _ _ (fun u b _ => Quiet.rfl.fold _ _ fun v p _ => hq _ v p) q b (List.mem_finRange b)
  have hmem : (a, c) ∈ pairsOf (H.adjacentNodes b) := by
    have ha := (mem_adjacentNodes hp).2 na
    have hc := (mem_adjacentNodes hp).2 nc
    have hsort : ∀ (l : List (Fin n)), l.Pairwise (· < ·) → a ∈ l → c ∈ l → (a, c) ∈ pairsOf l := by
      intro l
      induction l with
      | nil => intro _ h; simp at h
      | cons x l ih =>
        intro hs ha hc
        obtain ⟨hx, hs'⟩ := List.pairwise_cons.1 hs
        simp only [pairsOf, List.mem_append, List.mem_map, Prod.mk.injEq]
        rcases List.mem_cons.1 ha with rfl | ha' <;> rcases List.mem_cons.1 hc with rfl | hc'
        · exact absurd hac (lt_irrefl _)
        · exact Or.inl ⟨c, hc', rfl, rfl⟩
        · exact absurd (hx a ha') (not_lt_of_gt hac)
        · exact Or.inr (ih hs' ha' hc')
    exact hsort _ ((List.pairwise_lt_finRange n).filter _) ha hc
  have fx2 := quiet_fold_each _ _ (fun v p _ => hq _ v p) fx (a, c) hmem
  have a1 : H.isAdj a c = true := (isAdj_iff hp).2 (not_null_of_eq m6.2 (by simp))
  have e2' : ep H b a .tail = true := (ep_iff hp).2 m2
  have e3' : ep H b c .arrow = true := (ep_iff hp).2 m3
  have e4' : ep H c b .tail = true := (ep_iff hp).2 m4
  have e5' : ep H a c .arrow = true := (ep_iff hp).2 m5
  have e6' : ep H c a .circle = true := (ep_iff hp).2 m6
  unfold r8Step at fx2
  rw [if_pos (by
    rcases h1 with h | h
    · have e1' : ep H a b .arrow = true := (ep_iff hp).2 ((getEndpoint_iff hp).1 h)
      simp [a1, e1', e2', e3', e4', e5', e6']
    · have e1' : ep H a b .circle = true := (ep_iff hp).2 ((getEndpoint_iff hp).1 h)
      simp [a1, e1', e2', e3', e4', e5', e6'])] at fx2
  simp at fx2

/-- The environment used in the examples: no length bound, sets in list order, names in index order. -/
def exEnv (ind : CI n) (k : Know n) : FciEnv n := ⟨ind, k, false, -1, id, List.reverse⟩

theorem exEnv_ok (ind : CI n) (k : Know n) : (exEnv ind k).Ok := ⟨fun _ => List.Perm.refl _, fun l => List.reverse_perm l⟩

/-- **C66 violated (rule R8).** The rule is only tried with `A` before `C` in the node order. Three dependent variables and the
required edges `2 → 1`, `1 → 0`: the result has `2 → 1 → 0` and `2 o→ 0`, which R8 orients as `2 → 0`. With the variables numbered
the other way round (required `0 → 1`, `1 → 2`) the same input gives the directed edge. -/
theorem C66_R8_violated :
    (∃ H, fci (exEnv (n := 3) (fun _ _ _ => false) ⟨fun _ _ => false, fun a b => (a = 2 ∧ b = 1) ∨ (a = 1 ∧ b = 0)⟩) none = some H ∧
      (H.getEndpoint 2 1 = some .arrow ∧ H.getEndpoint 1 2 = some .tail) ∧ (H.getEndpoint 1 0 = some .arrow ∧ H.getEndpoint 0 1 = some .tail) ∧
      H.getEndpoint 2 0 = some .arrow ∧ H.getEndpoint 0 2 = some .circle) ∧
    (∃ H, fci (exEnv (n := 3) (fun _ _ _ => false) ⟨fun _ _ => false, fun a b => (a = 0 ∧ b = 1) ∨ (a = 1 ∧ b = 2)⟩) none = some H ∧
      H.getEndpoint 0 2 = some .arrow ∧ H.getEndpoint 2 0 = some .tail) := by
  have d1 : ((fci (exEnv (n := 3) (fun _ _ _ => false) ⟨fun _ _ => false, fun a b => (a = 2 ∧ b = 1) ∨ (a = 1 ∧ b = 0)⟩) none).elim false fun H =>
      decide ((H.getEndpoint 2 1 = some .arrow ∧ H.getEndpoint 1 2 = some .tail) ∧ (H.getEndpoint 1 0 = some .arrow ∧ H.getEndpoint 0 1 = some .tail) ∧
      H.getEndpoint 2 0 = some .arrow ∧ H.getEndpoint 0 2 = some .circle)) = true := by decide +kernel
  have d2 : ((fci (exEnv (n := 3) (fun _ _ _ => false) ⟨fun _ _ => false, fun a b => (a = 0 ∧ b = 1) ∨ (a = 1 ∧ b = 2)⟩) none).elim false fun H =>
      decide (H.getEndpoint 0 2 = some .arrow ∧ H.getEndpoint 2 0 = some .tail)) = true := by decide +kernel
  constructor
  · obtain ⟨H, e, -⟩ := C28_fci_returns (exEnv (n := 3) (fun _ _ _ => false) ⟨fun _ _ => false, fun a b => (a = 2 ∧ b = 1) ∨ (a = 1 ∧ b = 0)⟩) none
    rw [e] at d1
    exact ⟨H, e, by simpa using d1⟩
  · obtain ⟨H, e, -⟩ := C28_fci_returns (exEnv (n := 3) (fun _ _ _ => false) ⟨fun _ _ => false, fun a b => (a = 0 ∧ b = 1) ∨ (a = 1 ∧ b = 2)⟩) none
    rw [e] at d2
    exact ⟨H, e, by simpa using d2⟩

/-- The independences among `Z=0`, `B=1`, `A=2`, `C=3`, `W=4` implied by `Z → B ← A → C ← B`, `W → C`. -/
def r4Ind : CI 5 := fun x y S =>
  let p := fun a b : Fin 5 => (x = a ∧ y = b) ∨ (x = b ∧ y = a)
  decide (p 0 2 ∧ 1 ∉ S ∧ 3 ∉ S) || decide (p 0 3 ∧ 1 ∈ S ∧ 2 ∈ S) || decide (p 0 4 ∧ (3 ∉ S ∨ (1 ∈ S ∧ 2 ∈ S))) ||
    decide (p 2 4 ∧ 3 ∉ S) || decide (p 1 4 ∧ 3 ∉ S)

/-- **C66 violated (rule R4).** In a round in which R1-R3 changed nothing rule R4 is not run. With the independences of
`Z → B ← A → C ← B`, `W → C` and no background knowledge the result contains `A → C` (rule R4, discriminating path `Z, B, A, C`);
when the (true) edge `B → C` is given as required knowledge, R1-R3 have nothing left to do, R4 is skipped, and `A o→ C` is returned
although `Z *→ B ←o A`, `B → C`, `Z` and `C` are not adjacent and `A` is in their separating set. -/
theorem C66_R4_violated :
    (∃ H, fci (exEnv r4Ind Know.none) none = some H ∧ H.getEndpoint 1 3 = some .arrow ∧ H.getEndpoint 3 1 = some .tail ∧
      H.getEndpoint 2 3 = some .arrow ∧ H.getEndpoint 3 2 = some .tail) ∧
    (∃ H, fci (exEnv r4Ind ⟨fun _ _ => false, fun a b => a = 1 ∧ b = 3⟩) none = some H ∧
      H.getEndpoint 1 3 = some .arrow ∧ H.getEndpoint 3 1 = some .tail ∧ H.getEndpoint 0 1 = some .arrow ∧ H.getEndpoint 2 1 = some .arrow ∧
      H.isAdj 0 3 = false ∧ H.getEndpoint 2 3 = some .arrow ∧ H.getEndpoint 3 2 = some .circle) := by
  have d1 : ((fci (exEnv r4Ind Know.none) none).elim false fun H => decide (H.getEndpoint 1 3 = some .arrow ∧ H.getEndpoint 3 1 = some .tail ∧
      H.getEndpoint 2 3 = some .arrow ∧ H.getEndpoint 3 2 = some .tail)) = true := by decide +kernel
  have d2 : ((fci (exEnv r4Ind ⟨fun _ _ => false, fun a b => a = 1 ∧ b = 3⟩) none).elim false fun H => decide
      (H.getEndpoint 1 3 = some .arrow ∧ H.getEndpoint 3 1 = some .tail ∧ H.getEndpoint 0 1 = some .arrow ∧ H.getEndpoint 2 1 = some .arrow ∧
      H.isAdj 0 3 = false ∧ H.getEndpoint 2 3 = some .arrow ∧ H.getEndpoint 3 2 = some .circle)) = true := by decide +kernel
  constructor
  · obtain ⟨H, e, -⟩ := C28_fci_returns (exEnv r4Ind Know.none) none
    rw [e] at d1
    exact ⟨H, e, by simpa using d1⟩
  · obtain ⟨H, e, -⟩ := C28_fci_returns (exEnv r4Ind ⟨fun _ _ => false, fun a b => a = 1 ∧ b = 3⟩) none
    rw [e] at d2
    exact ⟨H, e, by simpa using d2⟩

/-! ## C67: rule R4 -/

/-- `b=0`, `c=1`, `a1=2`, `a2=3`, `d1=4`, `d2=5`: `b o→ c`, `a_i → c`, `b o→ a_i`, `d_i → a_i`. -/
def r4Graph : GG 6 := run [.addEdge 0 1 .circle .arrow, .addEdge 2 1 .tail .arrow, .addEdge 3 1 .tail .arrow, .addEdge 0 2 .circle .arrow,
  .addEdge 0 3 .circle .arrow, .addEdge 4 2 .tail .arrow, .addEdge 5 3 .tail .arrow]

/-- **C67, inside one call.** (That a whole call keeps every tail and arrowhead it starts from is `C67_R4_only_refines_circles`.) The list of candidates `C` is computed once per `B`, so after one discriminating path has put an arrowhead at
`B` on `B - C`, another one can overwrite it with a tail. Here the CI test finds `d1` independent of `c` given `a1` (an arrowhead at
`b`) and `d2` independent of `c` given `a2, b` (a tail at `b`). After the first path the edge is `b ↔ c`; the rule returns `b → c`. -/
theorem C67_R4_revises_own_mark :
    let ind : CI 6 := fun x y S => decide ((x = 4 ∧ y = 1 ∧ S = [2]) ∨ (x = 5 ∧ y = 1 ∧ S = [3, 0]))
    r4Graph.Pag ∧ (r4Step (exEnv ind Know.none) (fun _ _ => none) 0 2 (r4Graph, false) 1).1.getEndpoint 1 0 = some .arrow ∧
    (r4 (exEnv ind Know.none) (fun _ _ => none) (r4Graph, false)).1.getEndpoint 1 0 = some .tail := by
  refine ⟨⟨by decide, by decide, by decide⟩, by decide +kernel, by decide +kernel⟩

end CL
