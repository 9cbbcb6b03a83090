import Verif.Model.Drawing
import Verif.Props.GraphPatterns
import Verif.Props.Parce
import Verif.Props.Rcd
import Verif.Props.ConfounderQueries
import Verif.Model.Lingam
import Verif.Proofs.PartialCorr
import Verif.Proofs.VermaPearl
import Verif.Proofs.IMap
import Mathlib.Tactic.Linarith
import Mathlib.Tactic.FinCases

/-!
# C184-C188: drawings and the utilities of the LiNGAM package
-/
namespace CL
open GG Spec
variable {n : Nat}

namespace Draw

/-! ## C184: `to_pydot`, `to_pgv` -/

/-- Specification: the drawn line `d` joins `a` and `b` and shows the end at `a` as `x` and the end at `b` as `y`. -/
def Shows (d : DotEdge n) (a b : Fin n) (x y : Style) : Prop :=
  (d.src = a ∧ d.dst = b ∧ d.arrowtail = x ∧ d.arrowhead = y) ∨ (d.src = b ∧ d.dst = a ∧ d.arrowtail = y ∧ d.arrowhead = x)

/-- Specification: how the three marks look. -/
def Looks : Mark → Style → Prop
  | .tail, s => s = .none
  | .arrow, s => s = .normal
  | .circle, s => s = .odot
  | _, _ => False

theorem looks_iff (m : Mark) (s : Style) : Looks m s ↔ arrowType m = some s := by
  cases m <;> cases s <;> simp [Looks, arrowType]

theorem arrowType_some {m : Mark} (h : m = .tail ∨ m = .arrow ∨ m = .circle) : ∃ s, arrowType m = some s := by
  rcases h with rfl | rfl | rfl <;> exact ⟨_, rfl⟩

theorem mapM_some {α β : Type} (f : α → Option β) : ∀ (l : List α), (∀ a ∈ l, ∃ b, f a = some b) → ∃ r, l.mapM f = some r ∧ ∀ b, b ∈ r ↔ ∃ a ∈ l, f a = some b := by
  intro l
  induction l with
  | nil => intro _; exact ⟨[], rfl, by simp⟩
  | cons x l ih =>
    intro h
    obtain ⟨b, hb⟩ := h x List.mem_cons_self
    obtain ⟨r, hr, hm⟩ := ih fun a ha => h a (List.mem_cons_of_mem _ ha)
    refine ⟨b :: r, by simp [List.mapM_cons, hb, hr], fun c => ?_⟩
    simp only [List.mem_cons, hm, exists_eq_or_imp, hb, Option.some.injEq]
    rw [eq_comm]

theorem plain_of_simple {G : GG n} (hw : G.WF) (hs : G.Simple) {a b : Fin n} (h : G.g a b ≠ .null) : G.g a b = .tail ∨ G.g a b = .arrow ∨ G.g a b = .circle := by
  have := hw.noStar a b
  have := hs a b
  cases hm : G.g a b <;> simp_all

theorem edge_marks {G : GG n} (hw : G.WF) (hs : G.Simple) {e : Edge n} (he : e ∈ G.graphEdges) :
    e.node1 ≠ e.node2 ∧ G.g e.node1 e.node2 ≠ .null ∧ e.end1 = G.g e.node1 e.node2 ∧ e.end2 = G.g e.node2 e.node1 := by
  have h1 := graphEdges_nodes hw hs he
  refine ⟨h1.1, h1.2, ?_⟩
  rw [graphEdges_eq hw hs] at he
  simp only [List.mem_map, List.mem_filter, Prod.exists, mem_upperPairs, bne_iff_ne] at he
  obtain ⟨i, j, -, rfl⟩ := he
  unfold mkEdge
  split <;> simp

/-- **C184** `to_pydot` of a graph with single edges never raises, and the drawing says what the graph says: between two nodes there is a line exactly if they are adjacent,
there is only one, and its ends are shown by the marks of the graph (tail: none, arrow: normal, circle: odot); no line joins a node to itself. -/
theorem C184_pydot (hist : List (Op n)) (hs : (run hist).Simple) (hl : ∀ v, (run hist).g v v = .null) :
    ∃ D, toPydot (run hist) none = some D ∧ (∀ d ∈ D, d.src ≠ d.dst ∧ d.green = false ∧ d.wide = false) ∧
      (∀ a b x y, a ≠ b → ((∃ d ∈ D, Shows d a b x y) ↔ Looks ((run hist).g a b) x ∧ Looks ((run hist).g b a) y)) ∧
      (∀ d ∈ D, ∀ d' ∈ D, (d.src = d'.src ∧ d.dst = d'.dst ∨ d.src = d'.dst ∧ d.dst = d'.src) → d = d') := by
  have hw := run_wf hist
  set G := run hist
  have hf : ∀ p ∈ G.graphEdges.map (fun e => (e, ([] : List Fci.Label))), ∃ d, dotEdge p = some d := by
    intro p hp
    obtain ⟨e, he, rfl⟩ := List.mem_map.1 hp
    obtain ⟨-, hn, h1, h2⟩ := edge_marks hw hs he
    obtain ⟨s, hs1⟩ := arrowType_some (plain_of_simple hw hs hn)
    obtain ⟨t, ht⟩ := arrowType_some (plain_of_simple hw hs (fun h => hn ((hw.symm _ _).1 h)))
    exact ⟨_, by simp [dotEdge, h1, h2, hs1, ht]; rfl⟩
  obtain ⟨D, hD, hm⟩ := mapM_some dotEdge _ hf
  have hmem : ∀ d, d ∈ D ↔ ∃ e ∈ G.graphEdges, arrowType e.end1 = some d.arrowtail ∧ arrowType e.end2 = some d.arrowhead ∧ d.src = e.node1 ∧ d.dst = e.node2 ∧
      d.green = false ∧ d.wide = false := by
    intro d
    rw [hm]
    simp only [List.mem_map, exists_exists_and_eq_and]
    refine exists_congr fun e => and_congr_right fun _ => ?_
    unfold dotEdge
    cases h1 : arrowType e.end1 <;> cases h2 : arrowType e.end2 <;> simp
    obtain ⟨a, b, c, d', e', f'⟩ := d
    constructor
    · rintro h; cases h; simp
    · simp; rintro rfl rfl rfl rfl rfl rfl; trivial
  refine ⟨D, by rw [toPydot]; exact hD, fun d hd => ?_, fun a b x y hab => ?_, fun d hd d' hd' h => ?_⟩
  · obtain ⟨e, he, -, -, h1, h2, h3, h4⟩ := (hmem d).1 hd
    refine ⟨?_, h3, h4⟩
    rw [h1, h2]; exact (edge_marks hw hs he).1
  · rw [looks_iff, looks_iff]
    constructor
    · rintro ⟨d, hd, h⟩
      obtain ⟨e, he, t1, t2, h1, h2, -, -⟩ := (hmem d).1 hd
      obtain ⟨-, -, m1, m2⟩ := edge_marks hw hs he
      rcases h with ⟨ha, hb, rfl, rfl⟩ | ⟨ha, hb, rfl, rfl⟩
      · rw [← ha, ← hb, h1, h2, ← m1, ← m2]; exact ⟨t1, t2⟩
      · rw [← ha, ← hb, h1, h2, ← m1, ← m2]; exact ⟨t2, t1⟩
    · rintro ⟨h1, h2⟩
      have hn : G.g a b ≠ .null := by intro h; rw [h] at h1; simp [arrowType] at h1
      obtain ⟨e, he, ho⟩ := graphEdges_exists hw hs hl hn
      obtain ⟨-, -, m1, m2⟩ := edge_marks hw hs he
      rcases ho with ⟨ha, hb⟩ | ⟨ha, hb⟩
      · rw [ha, hb] at m1 m2
        exact ⟨⟨a, b, x, y, false, false⟩, (hmem _).2 ⟨e, he, by rw [m1]; exact h1, by rw [m2]; exact h2, ha.symm, hb.symm, rfl, rfl⟩, Or.inl ⟨rfl, rfl, rfl, rfl⟩⟩
      · rw [ha, hb] at m1 m2
        exact ⟨⟨b, a, y, x, false, false⟩, (hmem _).2 ⟨e, he, by rw [m1]; exact h2, by rw [m2]; exact h1, ha.symm, hb.symm, rfl, rfl⟩, Or.inr ⟨rfl, rfl, rfl, rfl⟩⟩
  · obtain ⟨e, he, t1, t2, h1, h2, h3, h4⟩ := (hmem d).1 hd
    obtain ⟨e', he', t1', t2', h1', h2', h3', h4'⟩ := (hmem d').1 hd'
    rw [h1, h2, h1', h2'] at h
    have := graphEdges_unique hw hs he he' h
    subst this
    rw [t1] at t1'; rw [t2] at t2'
    obtain ⟨a, b, c, f, g, i⟩ := d
    obtain ⟨a', b', c', f', g', i'⟩ := d'
    simp only [Option.some.injEq] at *
    subst h1 h2 h3 h4 h1' h2' h3' h4' t1' t2'
    rfl

/-- **C184** Consequently two such graphs with the same drawing have the same marks. -/
theorem C184_injective (h1 h2 : List (Op n)) (s1 : (run h1).Simple) (l1 : ∀ v, (run h1).g v v = .null) (s2 : (run h2).Simple) (l2 : ∀ v, (run h2).g v v = .null)
    (h : toPydot (run h1) none = toPydot (run h2) none) : (run h1).g = (run h2).g := by
  obtain ⟨D, hD, -, hS, -⟩ := C184_pydot h1 s1 l1
  obtain ⟨D', hD', -, hS', -⟩ := C184_pydot h2 s2 l2
  rw [hD, hD'] at h
  obtain rfl := Option.some.inj h
  have key : ∀ (G H : GG n), G.WF → G.Simple → (∀ a b x y, a ≠ b → (Looks (G.g a b) x ∧ Looks (G.g b a) y ↔ Looks (H.g a b) x ∧ Looks (H.g b a) y)) →
      ∀ a b, a ≠ b → G.g a b ≠ .null → G.g a b = H.g a b := by
    intro G H hw hs hh a b hab hn
    obtain ⟨x, hx⟩ := arrowType_some (plain_of_simple hw hs hn)
    obtain ⟨y, hy⟩ := arrowType_some (plain_of_simple hw hs (fun h => hn ((hw.symm _ _).1 h)))
    have := ((hh a b x y hab).1 ⟨(looks_iff _ _).2 hx, (looks_iff _ _).2 hy⟩).1
    rw [looks_iff] at this
    revert hx this
    cases G.g a b <;> cases H.g a b <;> simp [arrowType] <;> rintro rfl <;> simp
  funext a b
  by_cases hab : a = b
  · subst hab; rw [l1, l2]
  · have e : ∀ a b x y, a ≠ b → (Looks ((run h1).g a b) x ∧ Looks ((run h1).g b a) y ↔ Looks ((run h2).g a b) x ∧ Looks ((run h2).g b a) y) :=
      fun a b x y hab => (hS a b x y hab).symm.trans (hS' a b x y hab)
    by_cases hn : (run h1).g a b = .null
    · by_cases hn' : (run h2).g a b = .null
      · rw [hn, hn']
      · exact (key _ _ (run_wf h2) s2 (fun a b x y hab => (e a b x y hab).symm) a b hab hn').symm
    · exact key _ _ (run_wf h1) s1 e a b hab hn

/-- **C184** The node statements: the label shown for a node is the given label, or its name if none are given; it is a square exactly if the node is latent. -/
theorem C184_labels (names : List String) (latent : Nat → Bool) (labels : Option (List String)) :
    (nodeStmts names latent labels = none ↔ ∃ l, labels = some l ∧ l.length ≠ names.length) ∧
    ∀ S, nodeStmts names latent labels = some S → ∀ i < names.length, shown S i = some ((labels.getD names).getD i "", latent i) := by
  have hfold : ∀ (m i : Nat) (f g : Nat → String), shown ((List.range m).flatMap fun j => [⟨j, f j, false⟩, ⟨j, g j, latent j⟩]) i =
      if i < m then some (g i, latent i) else none := by
    intro m i f g
    induction m with
    | zero => rfl
    | succ m ih =>
      unfold shown at ih ⊢
      rw [List.range_succ, List.flatMap_append, List.foldl_append, ih]
      simp only [List.flatMap_cons, List.flatMap_nil, List.append_nil, List.foldl_cons, List.foldl_nil]
      by_cases h : m = i
      · subst h; simp
      · rw [if_neg h, if_neg h]
        by_cases h' : i < m
        · rw [if_pos h', if_pos (by omega)]
        · rw [if_neg h', if_neg (by omega)]
  constructor
  · unfold nodeStmts
    cases labels with
    | none => simp
    | some l => by_cases h : l.length = names.length <;> simp [h]
  · intro S hS i hi
    unfold nodeStmts at hS
    split at hS
    · cases hS
    · rw [← Option.some.inj hS, hfold, if_pos hi]

/-- **C184** With the labelled edges of `fci` handed over, a line is green exactly if its edge is labelled definitely direct and wide exactly if it is labelled "no latent confounder". -/
theorem C184_colours (G : GG n) (edges : List (Edge n × List Fci.Label)) (D : List (DotEdge n)) (h : toPydot G (some edges) = some D) (k : Nat) :
    (edges[k]?).map (fun p => (p.1.node1, p.1.node2, decide (Fci.Label.dd ∈ p.2), decide (Fci.Label.nl ∈ p.2))) = (D[k]?).map fun d => (d.src, d.dst, d.green, d.wide) := by
  have : ∀ (l : List (Edge n × List Fci.Label)) (D : List (DotEdge n)) (k : Nat), l.mapM dotEdge = some D →
      (l[k]?).map (fun p => (p.1.node1, p.1.node2, decide (Fci.Label.dd ∈ p.2), decide (Fci.Label.nl ∈ p.2))) = (D[k]?).map fun d => (d.src, d.dst, d.green, d.wide) := by
    intro l
    induction l with
    | nil => intro D k h; simp at h; subst h; simp
    | cons p l ih =>
      intro D k h
      rw [List.mapM_cons] at h
      cases hp : dotEdge p with
      | none => rw [hp] at h; simp at h
      | some d =>
        cases hl : l.mapM dotEdge with
        | none => rw [hp, hl] at h; simp at h
        | some r =>
          rw [hp, hl] at h
          simp at h
          subst h
          cases k with
          | zero =>
            unfold dotEdge at hp
            cases h1 : arrowType p.1.end1 with
            | none => rw [h1] at hp; simp at hp
            | some t =>
              cases h2 : arrowType p.1.end2 with
              | none => rw [h1, h2] at hp; simp at hp
              | some t' => rw [h1, h2] at hp; simp at hp; subst hp; rfl
          | succ k => simpa using ih r k hl
  exact this edges D k h

/-- **C184** `to_pydot` draws both edges of a pair joined by a directed and a bidirected edge; `to_pgv` draws the bidirected edge only if the directed one runs from the earlier to
the later node of the list, and both otherwise. -/
theorem C184_pgv_violated :
    (let G := run (n := 2) [.addEdge 0 1 .tail .arrow, .addEdge 0 1 .arrow .arrow]
     (toPydot G none).map List.length = some 2 ∧ (toPgv G).map List.length = some 1 ∧ ∀ D, toPgv G = some D → ¬ ∃ d ∈ D, Shows d 0 1 .none .normal) ∧
    (let G := run (n := 2) [.addEdge 1 0 .tail .arrow, .addEdge 0 1 .arrow .arrow]
     (toPydot G none).map List.length = some 2 ∧ (toPgv G).map List.length = some 2) := by
  refine ⟨⟨by decide +kernel, by decide +kernel, ?_⟩, by decide +kernel, by decide +kernel⟩
  intro D hD
  have : toPgv (run (n := 2) [.addEdge 0 1 .tail .arrow, .addEdge 0 1 .arrow .arrow]) = some [⟨0, 1, .normal, .normal, false, false⟩] := by decide +kernel
  rw [this] at hD
  obtain rfl := Option.some.inj hD
  unfold Shows
  decide

/-- **C184** On graphs with single edges the two functions draw the same. -/
theorem C184_pgv_partial (hist : List (Op n)) (hs : (run hist).Simple) (hl : ∀ v, (run hist).g v v = .null) : toPgv (run hist) = toPydot (run hist) none := by
  obtain ⟨D, hD, -, -, hu⟩ := C184_pydot hist hs hl
  have hnd : D.Nodup ∧ D.Pairwise fun d d' => ¬ (d.src = d'.src ∧ d.dst = d'.dst) := by
    have hw := run_wf hist
    have hn := graphEdges_nodup hw hs
    have : ∀ (l : List (Edge n)) (D : List (DotEdge n)), (∀ e ∈ l, e ∈ (run hist).graphEdges) → l.Nodup → l.mapM (fun e => dotEdge (e, [])) = some D →
        D.Pairwise fun d d' => ¬ (d.src = d'.src ∧ d.dst = d'.dst) := by
      intro l
      induction l with
      | nil => intro D _ _ h; simp at h; subst h; simp
      | cons e l ih =>
        intro D hsub hnd h
        rw [List.mapM_cons] at h
        cases hp : dotEdge (e, []) with
        | none => rw [hp] at h; simp at h
        | some d =>
          cases hl' : l.mapM (fun e => dotEdge (e, [])) with
          | none => rw [hp, hl'] at h; simp at h
          | some r =>
            rw [hp, hl'] at h
            simp at h
            subst h
            refine List.pairwise_cons.2 ⟨fun d' hd' h' => ?_, ih r (fun e he => hsub e (List.mem_cons_of_mem _ he)) (List.nodup_cons.1 hnd).2 hl'⟩
            have hsome : ∀ a ∈ l, ∃ b, dotEdge (a, []) = some b := by
              intro a ha
              obtain ⟨-, hn', m1, m2⟩ := edge_marks hw hs (hsub a (List.mem_cons_of_mem _ ha))
              obtain ⟨s, hs1⟩ := arrowType_some (plain_of_simple hw hs hn')
              obtain ⟨t, ht⟩ := arrowType_some (plain_of_simple hw hs (fun h => hn' ((hw.symm _ _).1 h)))
              exact ⟨_, by simp [dotEdge, m1, m2, hs1, ht]; rfl⟩
            obtain ⟨r', hr', hm⟩ := mapM_some (fun e => dotEdge (e, [])) l hsome
            rw [hl'] at hr'
            obtain rfl := Option.some.inj hr'
            obtain ⟨e', he', hde'⟩ := (hm d').1 hd'
            have ends : ∀ {e : Edge n} {d : DotEdge n}, dotEdge (e, []) = some d → d.src = e.node1 ∧ d.dst = e.node2 := by
              intro e d h
              unfold dotEdge at h
              cases h1 : arrowType e.end1 with
              | none => simp [h1] at h
              | some t =>
                cases h2 : arrowType e.end2 with
                | none => simp [h1, h2] at h
                | some t' => simp [h1, h2] at h; subst h; exact ⟨rfl, rfl⟩
            obtain ⟨p1, p2⟩ := ends hp
            obtain ⟨q1, q2⟩ := ends hde'
            have := graphEdges_unique hw hs (hsub e List.mem_cons_self) (hsub e' (List.mem_cons_of_mem _ he')) (Or.inl ⟨by rw [← p1, ← q1, h'.1], by rw [← p2, ← q2, h'.2]⟩)
            subst this
            exact (List.nodup_cons.1 hnd).1 he'
    have hD2 : (run hist).graphEdges.mapM (fun e => dotEdge (e, [])) = some D := by
      rw [← hD, toPydot, Option.getD_none, List.mapM_map]; rfl
    have hp := this _ D (fun e he => he) hn hD2
    exact ⟨hp.imp fun h h' => h ⟨by rw [h'], by rw [h']⟩, hp⟩
  have hfold : ∀ (l acc : List (DotEdge n)), (acc ++ l).Pairwise (fun d d' => ¬ (d.src = d'.src ∧ d.dst = d'.dst)) → l.foldl pgvAdd acc = acc ++ l := by
    intro l
    induction l with
    | nil => intro acc _; simp
    | cons d l ih =>
      intro acc h
      rw [List.foldl_cons]
      have : pgvAdd acc d = acc ++ [d] := by
        unfold pgvAdd
        rw [if_neg]
        simp only [List.any_eq_true, decide_eq_true_eq, not_exists, not_and]
        intro x hx h1 h2
        exact (List.pairwise_append.1 h).2.2 x hx d List.mem_cons_self ⟨h1, h2⟩
      rw [this, ih _ (by simpa using h)]
      simp
  have hD2 : (run hist).graphEdges.mapM (fun e => dotEdge (e, [])) = some D := by
    rw [← hD, toPydot, Option.getD_none, List.mapM_map]; rfl
  rw [toPgv, hD2, hD, Option.map_some, hfold D [] (by simpa using hnd.2)]
  simp

/-- The hypotheses are met by a graph with a directed and a partially directed edge. -/
example : let G := run (n := 3) [.addEdge 0 1 .tail .arrow, .addEdge 1 2 .circle .arrow]
    G.Simple ∧ (∀ v, G.g v v = .null) ∧ toPydot G none = some [⟨0, 1, .none, .normal, false, false⟩, ⟨1, 2, .odot, .normal, false, false⟩] := by
  refine ⟨?_, ?_, ?_⟩
  · unfold GG.Simple; decide +kernel
  · decide +kernel
  · decide +kernel

end Draw
end CL
