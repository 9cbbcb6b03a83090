import Verif.Props.GraphQueries
import Verif.Props.GraphTraversal
import Verif.Proofs.DSep

/-!
# C10: `is_dconnected_to` / `is_dseparated_from` against textbook d-separation
-/
namespace CL
open GG Relation Spec
variable {n : Nat}

/-- Every edge of the graph is a single directed edge. -/
def GG.AllDirected (G : GG n) : Prop := ∀ a b, G.g a b ≠ .null → G.Arrow a b ∨ G.Arrow b a

theorem GG.AllDirected.wf {G : GG n} (h : G.AllDirected) : G.WF := by
  constructor
  · intro a b
    have h1 := h a b
    have h2 := h b a
    unfold GG.Arrow at h1 h2
    grind
  · intro a b hs
    have h1 := h a b (by simp [hs])
    unfold GG.Arrow at h1
    simp [hs] at h1

theorem GG.AllDirected.simple {G : GG n} (h : G.AllDirected) : G.Simple := by
  intro a b
  have h1 := h a b
  unfold GG.Arrow at h1
  grind

theorem mem_ancPush (ps Q : List (Fin n)) (c : Fin n) : c ∈ ancPush ps Q ↔ c ∈ ps ∨ c ∈ Q := by
  unfold ancPush
  induction ps generalizing Q with
  | nil => simp
  | cons p ps ih =>
    rw [List.foldl_cons, ih]
    split <;> simp <;> grind

theorem ancLoop_spec {G : GG n} (hs : G.Simple) (node : Fin n) (f : Nat) (Q : List (Fin n)) (r : Bool)
    (h : ancLoop G node f Q = some r) : r = true ↔ ∃ q ∈ Q, ReflTransGen G.Arrow node q := by
  induction f generalizing Q with
  | zero => simp [ancLoop] at h
  | succ f ih =>
    cases Q with
    | nil => simp [ancLoop] at h; simp [← h]
    | cons t Q =>
      rw [ancLoop] at h
      split at h
      · rename_i ht
        simp at h
        subst h ht
        simp
        exact Or.inl .refl
      · rename_i ht
        rw [ih _ h]
        constructor
        · rintro ⟨q, hq, hp⟩
          rw [mem_ancPush] at hq
          rcases hq with hq | hq
          · exact ⟨t, by simp, hp.tail ((mem_parents_simple hs q t).1 hq)⟩
          · exact ⟨q, by simp [hq], hp⟩
        · rintro ⟨q, hq, hp⟩
          rcases List.mem_cons.1 hq with rfl | hq
          · rcases ReflTransGen.cases_tail hp with h' | ⟨c, hc, hcq⟩
            · exact absurd h' ht
            · exact ⟨c, (mem_ancPush _ _ _).2 (Or.inl ((mem_parents_simple hs c q).2 hcq)), hc⟩
          · exact ⟨q, (mem_ancPush _ _ _).2 (Or.inr hq), hp⟩

theorem isAncestorOfSet_spec {G : GG n} (hs : G.Simple) (node : Fin n) (z : List (Fin n)) (f : Nat) (r : Bool)
    (h : G.isAncestorOfSet node z f = some r) : r = true ↔ AncOf G.Arrow {v | v ∈ z} node := by
  unfold isAncestorOfSet at h
  split at h
  · rename_i hz
    simp at h
    subst h
    simp
    exact ⟨node, hz, .refl⟩
  · rw [ancLoop_spec hs _ _ _ _ h]
    simp [AncOf]

theorem mem_nodeEdges {G : GG n} (hd : G.AllDirected) (b : Fin n) (e : Edge n) :
    e ∈ G.nodeEdges b ↔ ∃ c, G.g b c ≠ .null ∧ e = mkEdge b c (G.g b c) (G.g c b) := by
  unfold nodeEdges
  simp only [List.mem_flatMap, List.mem_finRange, true_and]
  constructor
  · rintro ⟨c, hc⟩
    rw [pairEdges_simple hd.wf hd.simple] at hc
    by_cases h : G.g b c = .null
    · simp [h] at hc
    · simp [h] at hc
      exact ⟨c, h, hc⟩
  · rintro ⟨c, h, rfl⟩
    refine ⟨c, ?_⟩
    rw [pairEdges_simple hd.wf hd.simple]
    simp [h]

theorem adj_iff {G : GG n} (hd : G.AllDirected) (a b : Fin n) : Adj G.Arrow a b ↔ G.g a b ≠ .null := by
  constructor
  · rintro (h | h) <;> unfold GG.Arrow at h <;> simp [h.1, h.2]
  · exact hd a b

theorem mkEdge_distalNode {a b : Fin n} (m1 m2 : Mark) (h : a ≠ b) :
    (mkEdge a b m1 m2).distalNode a = some b ∧ (mkEdge a b m1 m2).distalNode b = some a := by
  have h' := h.symm
  unfold mkEdge Edge.distalNode
  split <;> simp [h, h']

/-- the edge object for the pair `a, b` -/
def edgeOf (G : GG n) (a b : Fin n) : Edge n := mkEdge a b (G.g a b) (G.g b a)

theorem reachableEdge_spec {G : GG n} (hd : G.AllDirected) {a b c : Fin n} (hab : a ≠ b) (hbc : b ≠ c)
    (hadj : Adj G.Arrow a b) (hadj2 : Adj G.Arrow b c) (e1 e2 : Edge n)
    (he1 : e1.distalNode a = some b) (hp1 : e1.proximal b = some (G.g b a)) (he2 : e2 = edgeOf G b c)
    (z : List (Fin n)) (f : Nat) (r : Bool) (h : G.reachableEdge e1 e2 a z f = some r) :
    r = true ↔ Open G.Arrow {v | v ∈ z} a b c := by
  unfold reachableEdge at h
  simp only [he1, hp1, he2, edgeOf, (mkEdge_proximal _ _ hbc).1] at h
  have hcol : (some (G.g b a) == some Mark.arrow && some (G.g b c) == some Mark.arrow) = true ↔
      Collider G.Arrow a b c := by
    have h1 := hd a b ((adj_iff hd a b).1 hadj)
    have h2 := hd b c ((adj_iff hd b c).1 hadj2)
    unfold Collider
    unfold GG.Arrow at *
    simp
    grind
  by_cases hc : Collider G.Arrow a b c
  · have hc' := hcol.2 hc
    rw [hc'] at h
    simp at h
    rw [isAncestorOfSet_spec hd.simple _ _ _ _ h]
    unfold Open
    simp [hc]
  · have hc' : (some (G.g b a) == some Mark.arrow && some (G.g b c) == some Mark.arrow) = false := by
      rw [← Bool.not_eq_true, hcol]; exact hc
    rw [hc'] at h
    simp only [Bool.not_false, Bool.true_and, Bool.false_and] at h
    unfold Open
    simp only [hc, false_implies, true_and, not_false_eq_true, true_implies]
    split at h
    · rename_i hb
      simp at h
      subst h
      simpa using hb
    · rename_i hb
      cases hx : G.isAncestorOfSet b z f with
      | none => simp [hx] at h
      | some _ =>
        simp [hx] at h
        subst h
        simpa using hb

/-- the queue items: the edge object of an adjacent pair, remembered with the node it was left from -/
def IsItem (G : GG n) (it : Edge n × Fin n) (a b : Fin n) : Prop :=
  Adj G.Arrow a b ∧ it = (edgeOf G a b, a)

/-- what the inner loop does: either it returned `True` because of some open `c = y`, or it pushed exactly the items of
the open non-backtracking neighbours -/
theorem dconInner_spec {G : GG n} (hd : G.AllDirected) (hac : Acyclic G.Arrow) (y : Fin n) (z : List (Fin n)) (f : Nat)
    {a b : Fin n} (hadj : Adj G.Arrow a b) (es : List (Edge n)) (hes : ∀ e ∈ es, e ∈ G.nodeEdges b)
    (Q : List (Edge n × Fin n)) (R : Option (List (Edge n × Fin n)))
    (h : dconInner G y z f (edgeOf G a b) a b es Q = some R) :
    match R with
    | none => ∃ c, c = y ∧ c ≠ a ∧ Adj G.Arrow b c ∧ Open G.Arrow {v | v ∈ z} a b c
    | some Q' =>
      (∀ it ∈ Q, it ∈ Q') ∧
      (∀ it ∈ Q', it ∈ Q ∨ ∃ c, c ≠ a ∧ IsItem G it b c ∧ Open G.Arrow {v | v ∈ z} a b c) ∧
      ∀ c, edgeOf G b c ∈ es → Adj G.Arrow b c → c ≠ a → Open G.Arrow {v | v ∈ z} a b c →
        c ≠ y ∧ (edgeOf G b c, b) ∈ Q' := by
  have hab : a ≠ b := hac.ne_of_adj hadj
  induction es generalizing Q with
  | nil =>
    simp [dconInner] at h
    subst h
    exact ⟨fun it hit => hit, fun it hit => Or.inl hit, by simp⟩
  | cons e es ih =>
    obtain ⟨c, hc, rfl⟩ := (mem_nodeEdges hd b e).1 (hes e (by simp))
    have hbc : Adj G.Arrow b c := (adj_iff hd b c).2 hc
    have hbcne : b ≠ c := hac.ne_of_adj hbc
    have hes' : ∀ e ∈ es, e ∈ G.nodeEdges b := fun e he => hes e (by simp [he])
    change dconInner G y z f (edgeOf G a b) a b (edgeOf G b c :: es) Q = some R at h
    rw [dconInner] at h
    have hdist : (edgeOf G b c).distalNode b = some c := (mkEdge_distalNode _ _ hbcne).1
    have einj : ∀ c', Adj G.Arrow b c' → edgeOf G b c' = edgeOf G b c → c' = c := by
      intro c' hbc' he
      have h1 : (edgeOf G b c').distalNode b = some c' := (mkEdge_distalNode _ _ (hac.ne_of_adj hbc')).1
      rw [he, hdist] at h1
      exact (Option.some.inj h1).symm
    simp only [hdist] at h
    split at h
    · rename_i hca
      have hca : c = a := Option.some.inj hca
      have := ih hes' Q h
      cases R with
      | none => exact this
      | some Q' =>
        refine ⟨this.1, this.2.1, ?_⟩
        intro c' hc' hadj' hne ho
        rcases List.mem_cons.1 hc' with h' | h'
        · exact absurd ((einj c' hadj' h').trans hca) hne
        · exact this.2.2 c' h' hadj' hne ho
    · rename_i hca
      have hca : c ≠ a := fun h => hca (by rw [h])
      cases hr : G.reachableEdge (edgeOf G a b) (edgeOf G b c) a z f with
      | none => simp [hr] at h
      | some r =>
        have hspec := reachableEdge_spec hd hab hbcne hadj hbc (edgeOf G a b) (edgeOf G b c)
          (mkEdge_distalNode _ _ hab).1 (mkEdge_proximal _ _ hab).2 rfl z f r hr
        simp only [hr] at h
        cases r with
        | true =>
          have ho := hspec.1 rfl
          dsimp only at h
          split at h
          · rename_i hcy
            have hcy : c = y := Option.some.inj hcy
            simp at h
            subst h
            exact ⟨c, hcy, hca, hbc, ho⟩
          · rename_i hcy
            have hcy : c ≠ y := fun h => hcy (by rw [h])
            have := ih hes' _ h
            cases R with
            | none => exact this
            | some Q' =>
              refine ⟨fun it hit => this.1 it (by simp [hit]), ?_, ?_⟩
              · intro it hit
                rcases this.2.1 it hit with h' | h'
                · rcases List.mem_cons.1 h' with h' | h'
                  · exact Or.inr ⟨c, hca, ⟨hbc, h'⟩, ho⟩
                  · exact Or.inl h'
                · exact Or.inr h'
              · intro c' hc' hadj' hne ho'
                rcases List.mem_cons.1 hc' with h' | h'
                · have := einj c' hadj' h'
                  subst this
                  exact ⟨hcy, (ih hes' _ h).1 _ (by simp)⟩
                · exact this.2.2 c' h' hadj' hne ho'
        | false =>
          dsimp only at h
          have := ih hes' Q h
          cases R with
          | none => exact this
          | some Q' =>
            refine ⟨this.1, this.2.1, ?_⟩
            intro c' hc' hadj' hne ho'
            rcases List.mem_cons.1 hc' with h' | h'
            · have := einj c' hadj' h'
              subst this
              exact absurd (hspec.2 ho') (by simp)
            · exact this.2.2 c' h' hadj' hne ho'

/-- soundness of `True`: some queue item extends to an active walk reaching `y` -/
theorem dconLoop_true {G : GG n} (hd : G.AllDirected) (hac : Acyclic G.Arrow) (y : Fin n) (z : List (Fin n))
    (af f : Nat) (Q : List (Edge n × Fin n)) (hQ : ∀ it ∈ Q, ∃ a b, IsItem G it a b)
    (h : dconLoop G y z af f Q = some true) :
    ∃ it ∈ Q, ∃ a b l, IsItem G it a b ∧ ActiveSeq G.Arrow {v | v ∈ z} (a :: b :: l) ∧
      (a :: b :: l).getLast? = some y := by
  induction f generalizing Q with
  | zero => simp [dconLoop] at h
  | succ f ih =>
    cases Q with
    | nil => simp [dconLoop] at h
    | cons it Q =>
      obtain ⟨a, b, hadj, rfl⟩ := hQ it (by simp)
      have hab : a ≠ b := hac.ne_of_adj hadj
      have hdist : (edgeOf G a b).distalNode a = some b := (mkEdge_distalNode _ _ hab).1
      rw [dconLoop] at h
      simp only [hdist] at h
      cases hin : dconInner G y z af (edgeOf G a b) a b (G.nodeEdges b) Q with
      | none => simp [hin] at h
      | some R =>
        have hsp := dconInner_spec hd hac y z af hadj (G.nodeEdges b) (fun e he => he) Q R hin
        simp only [hin] at h
        cases R with
        | none =>
          obtain ⟨c, rfl, -, hbc, ho⟩ := hsp
          exact ⟨_, List.mem_cons_self .., a, b, [c], ⟨hadj, rfl⟩, activeSeq_cons.2 ⟨hadj, ho, ActiveSeq.pair hbc⟩, by simp⟩
        | some Q' =>
          dsimp only at h
          have hQ' : ∀ it ∈ Q', ∃ a b, IsItem G it a b := by
            intro it hit
            rcases hsp.2.1 it hit with h' | ⟨c, -, hc, -⟩
            · exact hQ it (by simp [h'])
            · exact ⟨b, c, hc⟩
          obtain ⟨it, hit, a', b', l, hi, hw, hl⟩ := ih Q' hQ' h
          rcases hsp.2.1 it hit with h' | ⟨c, -, hc, ho⟩
          · exact ⟨it, by simp [h'], a', b', l, hi, hw, hl⟩
          · have heq : (a', b') = (b, c) := by
              have h1 := hi.2
              have h2 := hc.2
              rw [h1] at h2
              have hb : a' = b := congrArg Prod.snd h2
              subst hb
              have hE : edgeOf G a' b' = edgeOf G a' c := congrArg Prod.fst h2
              have d1 : (edgeOf G a' b').distalNode a' = some b' := (mkEdge_distalNode _ _ (hac.ne_of_adj hi.1)).1
              rw [hE, edgeOf, (mkEdge_distalNode _ _ (hac.ne_of_adj hc.1)).1] at d1
              rw [Option.some.inj d1]
            simp at heq
            obtain ⟨rfl, rfl⟩ := heq
            refine ⟨_, List.mem_cons_self .., a, a', b' :: l, ⟨hadj, rfl⟩, activeSeq_cons.2 ⟨hadj, ho, hw⟩, ?_⟩
            simpa using hl

/-- completeness: if the loop ends with `False`, no queue item starts an active path reaching `y` -/
theorem dconLoop_false {G : GG n} (hd : G.AllDirected) (hac : Acyclic G.Arrow) (y : Fin n) (z : List (Fin n))
    (af f : Nat) (Q : List (Edge n × Fin n)) (hQ : ∀ it ∈ Q, ∃ a b, IsItem G it a b)
    (h : dconLoop G y z af f Q = some false) :
    ∀ a b, (edgeOf G a b, a) ∈ Q → Adj G.Arrow a b → ∀ l, (a :: b :: l).Nodup → b ≠ y →
      ActiveSeq G.Arrow {v | v ∈ z} (a :: b :: l) → (a :: b :: l).getLast? ≠ some y := by
  induction f generalizing Q with
  | zero => simp [dconLoop] at h
  | succ f ih =>
    cases Q with
    | nil => simp
    | cons it Q =>
      obtain ⟨a, b, hadj, rfl⟩ := hQ it (by simp)
      have hab : a ≠ b := hac.ne_of_adj hadj
      have hdist : (edgeOf G a b).distalNode a = some b := (mkEdge_distalNode _ _ hab).1
      rw [dconLoop] at h
      simp only [hdist] at h
      cases hin : dconInner G y z af (edgeOf G a b) a b (G.nodeEdges b) Q with
      | none => simp [hin] at h
      | some R =>
        have hsp := dconInner_spec hd hac y z af hadj (G.nodeEdges b) (fun e he => he) Q R hin
        simp only [hin] at h
        cases R with
        | none => simp at h
        | some Q' =>
          dsimp only at h
          have hQ' : ∀ it ∈ Q', ∃ a b, IsItem G it a b := by
            intro it hit
            rcases hsp.2.1 it hit with h' | ⟨c, -, hc, -⟩
            · exact hQ it (by simp [h'])
            · exact ⟨b, c, hc⟩
          have IH := ih Q' hQ' h
          intro a' b' hmem hadj' l hnd hby hact hlast
          rcases List.mem_cons.1 hmem with he | he
          · have ha : a' = a := congrArg Prod.snd he
            subst ha
            have hb : b' = b := by
              have hE : edgeOf G a' b' = edgeOf G a' b := congrArg Prod.fst he
              have d1 : (edgeOf G a' b').distalNode a' = some b' := (mkEdge_distalNode _ _ (hac.ne_of_adj hadj')).1
              rw [hE, hdist] at d1
              exact (Option.some.inj d1).symm
            subst hb
            rcases l with _ | ⟨c, l⟩
            · simp at hlast; exact hby hlast
            · obtain ⟨-, ho, hrest⟩ := activeSeq_cons.1 hact
              have hbc : Adj G.Arrow b' c := hrest.edge b' c ⟨[], l, by simp⟩
              have hca : c ≠ a' := by
                simp at hnd; tauto
              obtain ⟨hcy, hin'⟩ := hsp.2.2 c ((mem_nodeEdges hd b' _).2 ⟨c, (adj_iff hd b' c).1 hbc, rfl⟩) hbc hca ho
              exact IH b' c hin' hbc l (List.nodup_cons.1 hnd).2 hcy hrest (by simpa using hlast)
          · exact IH a' b' (hsp.1 _ he) hadj' l hnd hby hact hlast

/-- **C10 (partial: partial correctness).** For every DAG, all nodes and every conditioning list: *if* `is_dconnected_to`
returns, its answer is textbook d-connection. What is missing is termination, which fails: `C10_nontermination_violated`. -/
theorem C10_dconnected_correct_partial (G : GG n) (hd : G.AllDirected) (hac : Acyclic G.Arrow) (x y : Fin n)
    (z : List (Fin n)) (afuel fuel : Nat) (r : Bool) (h : G.isDconnectedTo x y z afuel fuel = some r) :
    r = true ↔ DConn G.Arrow {v | v ∈ z} x y := by
  unfold isDconnectedTo at h
  split at h
  · rename_i hxy
    subst hxy
    simp at h
    subst h
    simp
    exact ⟨[x], by simp, rfl, rfl, ActiveSeq.single x⟩
  · rename_i hxy
    split at h
    · rename_i hany
      simp at h
      subst h
      simp
      simp only [List.any_eq_true] at hany
      obtain ⟨e, he, hdist⟩ := hany
      obtain ⟨c, hc, rfl⟩ := (mem_nodeEdges hd x e).1 he
      have hadj := (adj_iff hd x c).2 hc
      rw [(mkEdge_distalNode _ _ (hac.ne_of_adj hadj)).1] at hdist
      simp at hdist
      subst hdist
      exact dConn_of_adj hxy hadj
    · rename_i hany
      have hnadj : ¬ Adj G.Arrow x y := by
        intro hadj
        apply hany
        simp only [List.any_eq_true]
        exact ⟨edgeOf G x y, (mem_nodeEdges hd x _).2 ⟨y, (adj_iff hd x y).1 hadj, rfl⟩, by
          rw [edgeOf, (mkEdge_distalNode _ _ (hac.ne_of_adj hadj)).1]; simp⟩
      have hQ : ∀ it ∈ (G.nodeEdges x).reverse.map (fun e => (e, x)), ∃ a b, IsItem G it a b := by
        intro it hit
        simp only [List.mem_map, List.mem_reverse] at hit
        obtain ⟨e, he, rfl⟩ := hit
        obtain ⟨c, hc, rfl⟩ := (mem_nodeEdges hd x e).1 he
        exact ⟨x, c, (adj_iff hd x c).2 hc, rfl⟩
      cases r with
      | true =>
        simp
        obtain ⟨it, hit, a, b, l, hi, hw, hl⟩ := dconLoop_true hd hac y z afuel fuel _ hQ h
        simp only [List.mem_map, List.mem_reverse] at hit
        obtain ⟨e, he, rfl⟩ := hit
        have hax : x = a := congrArg Prod.snd hi.2
        subst hax
        exact dConn_of_walk hac (by simp) hl hw
      | false =>
        simp
        rintro ⟨l, hnd, hh, hl, ha⟩
        have hF := dconLoop_false hd hac y z afuel fuel _ hQ h
        rcases l with _ | ⟨a, _ | ⟨b, l⟩⟩
        · simp at hh
        · simp at hh hl; exact hxy (hh.symm.trans hl)
        · simp at hh
          subst hh
          have hab : Adj G.Arrow a b := ha.edge a b ⟨[], l, by simp⟩
          refine hF a b ?_ hab l hnd ?_ ha hl
          · simp only [List.mem_map, List.mem_reverse]
            exact ⟨edgeOf G a b, (mem_nodeEdges hd a _).2 ⟨b, (adj_iff hd a b).1 hab, rfl⟩, rfl⟩
          · rintro rfl; exact hnadj hab

/-- non-vacuity: the collider `0 → 1 ← 2`: marginally separated, connected given 1. -/
example : let G := run (n := 3) [.addEdge 0 1 .tail .arrow, .addEdge 2 1 .tail .arrow]
    (∀ a b, G.g a b ≠ .null → G.Arrow a b ∨ G.Arrow b a) ∧
    G.isDconnectedTo 0 2 [] 9 9 = some false ∧ G.isDconnectedTo 0 2 [1] 9 9 = some true := by decide

/-- `0 → 1`, `1 → 2 → 4`, `1 → 3 → 4`, and 5 isolated. -/
def loopGraph : GG 6 := run [.addEdge 0 1 .tail .arrow, .addEdge 1 2 .tail .arrow, .addEdge 2 4 .tail .arrow,
  .addEdge 1 3 .tail .arrow, .addEdge 3 4 .tail .arrow]

theorem loopGraph_dir : loopGraph.AllDirected := by
  unfold GG.AllDirected; decide

theorem loopGraph_acyclic : Acyclic loopGraph.Arrow := by
  have hlt : ∀ a b, loopGraph.Arrow a b → a < b := by decide
  have : ∀ a b, TransGen loopGraph.Arrow a b → a < b := by
    intro a b h
    induction h with
    | single h => exact hlt _ _ h
    | tail _ h ih => exact ih.trans (hlt _ _ h)
  exact fun x h => lt_irrefl _ (this x x h)

theorem loop_period (af f : Nat) (Q : List (Edge 6 × Fin 6)) :
    dconLoop loopGraph 5 [4] af (f + 4) ((edgeOf loopGraph 1 3, 1) :: Q) =
      dconLoop loopGraph 5 [4] af f ((edgeOf loopGraph 1 3, 1) :: (edgeOf loopGraph 1 0, 1) :: Q) := by
  rfl

theorem loop_none (af : Nat) : ∀ (f : Nat) (Q : List (Edge 6 × Fin 6)),
    dconLoop loopGraph 5 [4] af f ((edgeOf loopGraph 1 3, 1) :: Q) = none
  | 0, _ => rfl
  | 1, _ => rfl
  | 2, _ => rfl
  | 3, _ => rfl
  | f + 4, Q => by rw [loop_period]; exact loop_none af f _

/-- **C10 violated (termination).** On the DAG `0 → 1 → {2, 3} → 4` with an isolated node 5, asking whether 0 and 5 are
d-connected given `[4]` never returns: whatever the fuel, the search is still running (it walks round the cycle
1–3–4–2–1 forever, because there is no visited set). -/
theorem C10_nontermination_violated :
    loopGraph.AllDirected ∧ Acyclic loopGraph.Arrow ∧
    ∀ afuel fuel, loopGraph.isDconnectedTo 0 5 [4] afuel fuel = none := by
  refine ⟨loopGraph_dir, loopGraph_acyclic, ?_⟩
  intro af fuel
  match fuel with
  | 0 => rfl
  | f + 1 => exact loop_none af f _

end CL
