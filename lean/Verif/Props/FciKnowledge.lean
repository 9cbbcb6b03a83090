import Verif.Props.Rule0

/-!
# C67 (rule R4 as a whole), C71: background knowledge in FCI
-/
namespace CL
open GG
variable {n : Nat}

/-- `x → y`: an arrowhead at `y`, a tail at `x`. -/
def GG.Directed (H : GG n) (x y : Fin n) : Prop := H.getEndpoint x y = some .arrow ∧ H.getEndpoint y x = some .tail

instance (H : GG n) (x y : Fin n) : Decidable (H.Directed x y) := by unfold GG.Directed; infer_instance

namespace Fci

/-- Stable mode: a pair forbidden in both directions is not adjacent in the result of `fas`. -/
theorem fas_banned (ind : CI n) (k : Know n) (depth : Option Nat) {r : GG n × SSet n} (h : fas true ind k depth = some r) {x y : Fin n}
    (hxy : x ≠ y) (h1 : k.forb x y = true) (h2 : k.forb y x = true) : r.1.g x y = .null := by
  by_contra he
  have hb : k.ban x y = true := by simp [Know.ban, h1, h2]
  have hstep : ∀ (d : Nat) (st : FasSt n), Und st.G → Und (fasStableDepth ind k d st).G ∧
      ∀ a b, (fasStableDepth ind k d st).G.g a b ≠ .null ↔ st.G.g a b ≠ .null ∧ ¬ Hit ind k d st.G a b ∧ ¬ Hit ind k d st.G b a := by
    intro d st hu
    obtain ⟨a1, -, a3⟩ := stableDepth_adj ind k d hu (fun _ _ => none)
    rw [← fasStableDepth_G] at a1 a3
    exact ⟨a1, a3⟩
  have hsub : ∀ f d (s r : FasSt n), Und s.G → fasLoop true ind k depth f d s = some r → ∀ a b, r.G.g a b ≠ .null → s.G.g a b ≠ .null := by
    intro f
    induction f with
    | zero => intro d s r _ h; simp [fasLoop] at h
    | succ f ih =>
      intro d s r hu h a b hab
      rw [fasLoop] at h
      split at h
      · simp only [if_true] at h
        obtain ⟨a1, a3⟩ := hstep d s hu
        exact ((a3 a b).1 (ih _ _ r a1 h a b hab)).1
      · obtain rfl := Option.some.inj h; exact hab
  unfold fas at h
  rw [Option.map_eq_some_iff] at h
  obtain ⟨st, h, rfl⟩ := h
  rw [fasLoop] at h
  have hx : y ∈ (GG.complete n).neighbors x := (mem_neighbors _ _ _).2 ((complete_spec.2.1 x y).2 hxy)
  have hd : 0 < (GG.complete n).maxDegree := lt_of_lt_of_le (List.length_pos_of_mem hx) (length_neighbors_le _ x)
  have hw : withinDepth depth 0 = true := by cases depth <;> simp [withinDepth]
  rw [if_pos ⟨hd, hw⟩] at h
  simp only [if_true] at h
  obtain ⟨a1, a3⟩ := hstep 0 ⟨GG.complete n, fun _ _ => none, fun _ _ => none, []⟩ (complete_spec (n := n)).1
  have := (a3 x y).1 (hsub _ _ _ _ a1 h x y he)
  exact this.2.1 ⟨hx, by omega, Or.inl hb⟩

/-- The marks `fci_orient_bk` gives an edge `i o-o j` with `i` before `j` (at `i`, at `j`). -/
def bkMarks (k : Know n) (i j : Fin n) : Mark × Mark :=
  if k.forb i j then (.arrow, .tail) else if k.forb j i then (.tail, .arrow) else if k.req i j then (.tail, .arrow)
  else if k.req j i then (.arrow, .tail) else (.circle, .circle)

theorem orientBkStep_exact {k : Know n} {G : GG n} (h : G.Pag) {a b : Fin n} (h1 : G.g a b = .circle) (h2 : G.g b a = .circle) :
    (orientBkStep k G (mkEdge a b (G.g a b) (G.g b a))).g = set2 G.g a b (bkMarks k a b).1 (bkMarks k a b).2 := by
  have hab : G.g a b ≠ .null := by rw [h1]; simp
  have hne := ne_of_adj h hab
  obtain ⟨G0, e0, hG0⟩ : ∃ G0, G.removeEdge (mkEdge a b (G.g a b) (G.g b a)) = G0 ∧ G0.g = set2 G.g a b .null .null :=
    ⟨_, rfl, remove_g h hab⟩
  have d1 : (G0.addDirectedEdge a b).g = set2 G.g a b .tail .arrow := by
    funext x y; simp [addDirectedEdge, hG0, upd_apply, set2]; grind
  have d2 : (G0.addDirectedEdge b a).g = set2 G.g a b .arrow .tail := by
    funext x y; simp [addDirectedEdge, hG0, upd_apply, set2]; grind
  have d3 : G.g = set2 G.g a b .circle .circle := by
    funext x y; unfold set2; grind
  have e1 : (mkEdge a b (G.g a b) (G.g b a)).node1 = a ∧ (mkEdge a b (G.g a b) (G.g b a)).node2 = b := by
    rw [h1, h2]; simp [mkEdge, pointingLeft]
  unfold orientBkStep bkMarks
  rw [e0, e1.1, e1.2]
  repeat' split
  all_goals first | exact d1 | exact d2 | exact d3

theorem fciOrientBk_exact {k : Know n} {G : GG n} (h : G.Pag) (hc : ∀ a b, G.g a b = .null ∨ G.g a b = .circle) {i j : Fin n} (hij : i < j)
    (hn : G.g i j ≠ .null) : (fciOrientBk k G).g i j = (bkMarks k i j).1 ∧ (fciOrientBk k G).g j i = (bkMarks k i j).2 := by
  obtain ⟨-, -, -, ho⟩ := fold_graphEdges id (orientBkStep k) (fun _ => True)
    (fun i j o1 o2 m1 m2 => o1 = .circle → o2 = .circle → m1 = (bkMarks k i j).1 ∧ m2 = (bkMarks k i j).2) (by
      intro s _ hs i j hij hne
      obtain ⟨m1, m2, e, hm⟩ := orientBkStep_g (k := k) hs hne
      have hne' : i ≠ j := ne_of_lt hij
      have q1 := hs.marks i j
      have q2 := hs.marks j i
      have q3 := adj_symm hs hne
      simp only [id] at e ⊢
      refine ⟨trivial, set2_pag hs hne (by grind) (by grind) e, ?_, ?_⟩
      · intro x y h1 h2; rw [e]; simp [set2, h1, h2]
      · intro c1 c2
        rw [orientBkStep_exact (G := s) hs c1 c2]
        exact ⟨set2_left, set2_right hne'⟩) G trivial h
  refine ho i j hij hn ?_ ?_
  · exact (hc i j).resolve_left hn
  · exact (hc j i).resolve_left (adj_symm h hn)

/-- What `fci_orient_bk` decided stays in the result of `rule0`. -/
theorem rule0_knowledge {k : Know n} {ss : SSet n} {G : GG n} (h : G.Pag) :
    Refine (fciOrientBk k (reorientAll .circle G)) (rule0 k ss G) := by
  obtain ⟨p1, e1⟩ := reorientAll_spec h
  obtain ⟨p2, e2, -⟩ := fciOrientBk_spec (k := k) p1
  unfold rule0
  refine foldl_inv (Refine (fciOrientBk k (reorientAll .circle G))) _ _ (fun u hu b _ => ?_) _ Refine.rfl
  unfold rule0Node
  exact foldl_inv (Refine (fciOrientBk k (reorientAll .circle G))) _ _ (fun v hv p _ => hv.trans (rule0Step_refine (hv.pag p2) p)) _ hu

theorem fci_knowledge (env : FciEnv n) (depth : Option Nat) : ∃ H, fci env depth = some H ∧ H.Pag ∧
    (∀ i j, i < j → H.g i j ≠ .null → ((bkMarks env.k i j).1 ≠ .circle → H.g i j = (bkMarks env.k i j).1) ∧
      ((bkMarks env.k i j).2 ≠ .circle → H.g j i = (bkMarks env.k i j).2)) ∧
    ∀ x y, env.k.forb x y = true → env.k.forb y x = true → H.g x y = .null := by
  obtain ⟨r, d, hr, hi, -⟩ := fas_spec true env.ind env.k depth
  have h1 := reorientAll_spec hi.und.pag
  have h2 := rule0_keep (k := env.k) (ss := r.ss) h1.1
  have h3 := removeByPdsep_spec (env := env) (s := (rule0 env.k r.ss (reorientAll .circle r.G), r.ss)) h2.1
  have h4 := reorientAll_spec h3.1
  have h5 := rule0_keep (k := env.k) (ss := (removeByPdsep env (rule0 env.k r.ss (reorientAll .circle r.G), r.ss)).2) h4.1
  have h6 := rule0_knowledge (k := env.k) (ss := (removeByPdsep env (rule0 env.k r.ss (reorientAll .circle r.G), r.ss)).2) h4.1
  have h7 := reorientAll_spec h4.1
  have hk := fciOrientBk_spec (k := env.k) h7.1
  obtain ⟨s, H, first, e, hs, eH, hp, hkeep, -⟩ := fci_some env depth
  have es : prepare env depth = some (rule0 env.k (removeByPdsep env (rule0 env.k r.ss (reorientAll .circle r.G), r.ss)).2
      (reorientAll .circle (removeByPdsep env (rule0 env.k r.ss (reorientAll .circle r.G), r.ss)).1),
      (removeByPdsep env (rule0 env.k r.ss (reorientAll .circle r.G), r.ss)).2) := by rw [prepare, hr, Option.map_some]
  rw [es] at e
  simp only [Option.some.injEq] at e
  have hm : Refine s.1 H := by
    rw [fci, es, e] at eH
    exact mainLoop_refine _ _ _ H hs eH
  subst e
  have href := h6.trans hm
  refine ⟨H, eH, hp, fun i j hij hne => ?_, fun x y f1 f2 => ?_⟩
  · have hne2 : (reorientAll .circle (reorientAll .circle (removeByPdsep env (rule0 env.k r.ss (reorientAll .circle r.G), r.ss)).1)).g i j ≠ .null := by
      intro h0
      exact hne ((href.keep.null i j).2 ((hk.2.1 i j).2 h0))
    obtain ⟨q1, q2⟩ := fciOrientBk_exact (k := env.k) h7.1 (fun a b => by rw [h7.2]; split <;> simp) hij hne2
    have s1 := href.step i j
    have s2 := href.step j i
    rw [q1] at s1
    rw [q2] at s2
    grind
  · by_cases hxy : x = y
    · subst hxy; exact hp.diag x
    · have h0 := fas_banned env.ind env.k depth hr hxy f1 f2
      rw [hkeep.null, h5.2, h4.2]
      have : (removeByPdsep env (rule0 env.k r.ss (reorientAll .circle r.G), r.ss)).1.g x y = .null := by
        rcases h3.2 x y with q | q
        · rw [q]
          exact (h2.2 x y).2 (by rw [h1.2, if_pos h0])
        · exact q
      rw [if_pos this]

end Fci
open Fci

/-- **C67.** Rule R4, from its call to its return, only replaces circles: for every graph, table, CI test and knowledge no adjacency, no tail and
no arrowhead changes. -/
theorem C67_R4_only_refines_circles (env : FciEnv n) (ss : SSet n) {G : GG n} (h : G.Pag) (flag : Bool) :
    G.OnlyCirclesRefined (r4 env ss (G, flag)).1 :=
  (r4_step (st := (G, flag)) h).ref.only h

/-- **C67.** So does the whole orientation loop: its result keeps every tail and arrowhead it starts from. -/
theorem C67_loop_only_refines_circles (env : FciEnv n) (ss : SSet n) (rounds : Nat) (first : Bool) {G H : GG n} (h : G.Pag)
    (hH : mainLoop env ss rounds first G = some H) : G.OnlyCirclesRefined H :=
  (mainLoop_refine rounds first G H h hH).only h

/-- **C71.** In the graph `fci` returns, for every CI test, depth and order of sets: a pair forbidden in both directions is not adjacent; an
adjacent pair with one direction forbidden has the other direction; an adjacent pair with a required direction (the other one neither required, nor
any of the two forbidden) has this direction. -/
theorem C71_knowledge_respected (env : FciEnv n) (depth : Option Nat) : ∃ H, fci env depth = some H ∧
    (∀ x y, env.k.forb x y = true → env.k.forb y x = true → H.isAdj x y = false) ∧
    (∀ x y, env.k.forb x y = true → H.isAdj x y = true → H.Directed y x) ∧
    (∀ x y, env.k.req x y = true → env.k.req y x = false → env.k.forb x y = false → env.k.forb y x = false → H.isAdj x y = true →
      H.Directed x y) := by
  obtain ⟨H, e, hp, h1, h2⟩ := fci_knowledge env depth
  have hdir : ∀ x y, H.Directed x y ↔ H.g y x = .arrow ∧ H.g x y = .tail := by
    intro x y; unfold GG.Directed; simp [getEndpoint_iff hp]
  have hn : ∀ x y, env.k.forb x y = true → env.k.forb y x = true → H.isAdj x y = false := by
    intro x y f1 f2
    rw [← Bool.not_eq_true, isAdj_iff hp]
    simp [h2 x y f1 f2]
  refine ⟨H, e, hn, fun x y f ha => ?_, fun x y r1 r2 f1 f2 ha => ?_⟩
  · have f2 : env.k.forb y x = false := by
      rw [← Bool.not_eq_true]
      intro f2
      rw [hn x y f f2] at ha
      simp at ha
    rw [hdir]
    have hne := (isAdj_iff hp).1 ha
    rcases lt_trichotomy x y with q | rfl | q
    · have := h1 x y q hne
      simp only [bkMarks, f, if_true] at this
      simpa using this
    · exact absurd (hp.diag x) hne
    · have := h1 y x q (adj_symm hp hne)
      simp only [bkMarks, f, f2, if_true] at this
      simpa [and_comm] using this
  · rw [hdir]
    have hne := (isAdj_iff hp).1 ha
    rcases lt_trichotomy x y with q | rfl | q
    · have := h1 x y q hne
      simp only [bkMarks, r1, f1, f2, if_true] at this
      simpa [and_comm] using this
    · exact absurd (hp.diag x) hne
    · have := h1 y x q (adj_symm hp hne)
      simp only [bkMarks, r1, r2, f1, f2, if_true] at this
      simpa using this

/-- Every run meets the hypotheses; here knowledge of each kind is at work: `0 – 1` forbidden both ways, `1 → 2` forbidden, `0 → 2` required. -/
example : ∃ H, fci (exEnv (n := 3) (fun _ _ _ => false) ⟨fun a b => (a = 0 ∧ b = 1) ∨ (a = 1 ∧ b = 0) ∨ (a = 1 ∧ b = 2), fun a b => a = 0 ∧ b = 2⟩) none = some H ∧
    H.isAdj 0 1 = false ∧ H.isAdj 1 2 = true ∧ H.Directed 2 1 ∧ H.isAdj 0 2 = true ∧ H.Directed 0 2 :=
  elim_decide (P := fun H : GG 3 => H.isAdj 0 1 = false ∧ H.isAdj 1 2 = true ∧ H.Directed 2 1 ∧ H.isAdj 0 2 = true ∧ H.Directed 0 2) (by decide +kernel)

/-- **C71 violated.** A required edge need not be in the result: the skeleton phase never looks at the required edges, and removes `0 – 1` when
the CI test says independent. -/
theorem C71_required_edge_violated :
    ∃ H, fci (exEnv (n := 2) (fun _ _ _ => true) ⟨fun _ _ => false, fun a b => a = 0 ∧ b = 1⟩) none = some H ∧ H.isAdj 0 1 = false :=
  elim_decide (P := fun H : GG 2 => H.isAdj 0 1 = false) (by decide +kernel)

end CL
