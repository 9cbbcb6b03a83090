import Verif.Spec.GraphHistory
import Verif.Proofs.GraphBasic
import Verif.Model.GraphUtils
import Mathlib.Data.Fintype.Card
import Mathlib.Data.Fintype.EquivFin
import Mathlib.Order.WellFounded
import Mathlib.Data.List.Nodup
import Mathlib.Tactic.Common

/-!
# C05 (directed cycles), C09 (causal order)
-/
namespace CL
open GG Relation
variable {n : Nat}

theorem getEdge_traverse (G : GG n) (t u : Fin n) :
    (G.getEdge t u).bind (traverseDirected t) = if G.Arrow t u then some u else none := by
  have key : ∀ m1 m2 : Mark, (t = u → m1 = m2) →
      ((if m1 = .null then none else some (mkEdge t u m1 m2)).bind (traverseDirected t) =
        if m1 = .tail ∧ m2 = .arrow then some u else none) := by
    intro m1 m2 h
    by_cases htu : t = u
    · have := h htu
      subst this htu
      revert m1; unfold traverseDirected mkEdge; simp
      intro m1; cases m1 <;> simp [pointingLeft]
    · have hut : ¬ u = t := fun h => htu h.symm
      cases m1 <;> cases m2 <;> simp [traverseDirected, mkEdge, pointingLeft, htu, hut]
  unfold getEdge
  rw [key _ _ (by rintro rfl; rfl)]
  by_cases h : G.Arrow t u
  · rw [if_pos h]; exact if_pos h
  · rw [if_neg h]; exact if_neg h

theorem simple_no_mutual {G : GG n} (hs : G.Simple) (t u : Fin n) :
    (G.isParentOf t u && G.isParentOf u t) = false := by
  have h1 := hs t u
  have h2 := hs u t
  simp [isParentOf]
  grind

theorem mem_adjacent_of_arrow {G : GG n} {t u : Fin n} (h : G.Arrow t u) : u ∈ G.adjacentNodes t := by
  unfold GG.Arrow at h
  simp [adjacentNodes, h.1, h.2, List.mem_finRange]

/-- what one neighbour loop does when it does not return `True` -/
theorem pathInner_some {G : GG n} (hs : G.Simple) (dst t : Fin n) (us V Q V' Q' : List (Fin n))
    (hV : V.Nodup) (h : pathInner G dst t us V Q = some (V', Q')) :
    V'.Nodup ∧ (∃ N, V' = V ++ N ∧ Q' = N.reverse ++ Q ∧ ∀ c ∈ N, G.Arrow t c ∧ c ≠ dst) ∧
      ∀ c ∈ us, G.Arrow t c → c ∈ V' := by
  induction us generalizing V Q with
  | nil =>
    simp [pathInner] at h
    obtain ⟨rfl, rfl⟩ := h
    exact ⟨hV, ⟨[], by simp⟩, by simp⟩
  | cons u us ih =>
    rw [pathInner, if_neg (by simp [simple_no_mutual hs]), getEdge_traverse] at h
    by_cases ha : G.Arrow t u
    · rw [if_pos ha] at h
      dsimp only at h
      split at h
      · obtain ⟨h1, h2, h3⟩ := ih V Q hV h
        refine ⟨h1, h2, ?_⟩
        intro c hc hac
        rcases List.mem_cons.1 hc with rfl | hc
        · obtain ⟨N, rfl, -, -⟩ := h2; simp_all
        · exact h3 c hc hac
      · split at h
        · exact absurd h (by simp)
        · rename_i hu hd
          obtain ⟨h1, ⟨N, rfl, rfl, hN⟩, h3⟩ := ih (V ++ [u]) (u :: Q)
            (by rw [List.nodup_append]; simp [hV]; grind) h
          refine ⟨h1, ⟨u :: N, by simp, by simp, ?_⟩, ?_⟩
          · intro c hc
            rcases List.mem_cons.1 hc with rfl | hc
            · exact ⟨ha, hd⟩
            · exact hN c hc
          · intro c hc hac
            rcases List.mem_cons.1 hc with rfl | hc
            · simp
            · exact h3 c hc hac
    · rw [if_neg ha] at h
      dsimp only at h
      obtain ⟨h1, h2, h3⟩ := ih V Q hV h
      refine ⟨h1, h2, ?_⟩
      intro c hc hac
      rcases List.mem_cons.1 hc with rfl | hc
      · exact absurd hac ha
      · exact h3 c hc hac

theorem pathInner_none {G : GG n} (hs : G.Simple) (dst t : Fin n) (us V Q : List (Fin n))
    (h : pathInner G dst t us V Q = none) : G.Arrow t dst ∧ dst ∉ V := by
  induction us generalizing V Q with
  | nil => simp [pathInner] at h
  | cons u us ih =>
    rw [pathInner, if_neg (by simp [simple_no_mutual hs]), getEdge_traverse] at h
    by_cases ha : G.Arrow t u
    · rw [if_pos ha] at h
      dsimp only at h
      split at h
      · exact ih V Q h
      · split at h
        · rename_i hu hd; subst hd; exact ⟨ha, hu⟩
        · have := ih _ _ h
          exact ⟨this.1, fun hm => this.2 (by simp [hm])⟩
    · rw [if_neg ha] at h
      exact ih V Q h

/-- invariant of the search from `a` -/
structure PathInv (G : GG n) (a dst : Fin n) (V Q : List (Fin n)) : Prop where
  nodup : V.Nodup
  start : a ∈ V
  sub : ∀ q ∈ Q, q ∈ V
  reach : ∀ v ∈ V, ReflTransGen G.Arrow a v
  dst : dst = a ∨ dst ∉ V
  closed : ∀ v ∈ V, v ∉ Q → ∀ c, G.Arrow v c → c ∈ V

theorem pathLoop_spec {G : GG n} (hs : G.Simple) (a dst : Fin n) (f : Nat) (V Q : List (Fin n))
    (hi : PathInv G a dst V Q) (hf : (n - V.length) + Q.length < f) :
    (pathLoop G dst f V Q = some true ∧ dst ≠ a ∧ TransGen G.Arrow a dst) ∨
    (pathLoop G dst f V Q = some false ∧ (dst = a ∨ ¬ ReflTransGen G.Arrow a dst)) := by
  induction f generalizing V Q with
  | zero => omega
  | succ f ih =>
    cases Q with
    | nil =>
      right
      refine ⟨rfl, ?_⟩
      rcases hi.dst with h | h
      · exact Or.inl h
      · refine Or.inr fun hp => h ?_
        have closedAll : ∀ y, ReflTransGen G.Arrow a y → y ∈ V := by
          intro y hy
          induction hy with
          | refl => exact hi.start
          | tail _ h2 ih2 => exact hi.closed _ ih2 (by simp) _ h2
        exact closedAll _ hp
    | cons t Q =>
      rw [pathLoop]
      cases hin : pathInner G dst t (G.adjacentNodes t) V Q with
      | none =>
        left
        obtain ⟨h1, h2⟩ := pathInner_none hs _ _ _ _ _ hin
        refine ⟨rfl, fun h => h2 (h ▸ hi.start), ?_⟩
        exact TransGen.tail' (hi.reach t (hi.sub t (by simp))) h1
      | some p =>
        obtain ⟨V', Q'⟩ := p
        obtain ⟨h1, ⟨N, hV', hQ', hN⟩, h3⟩ := pathInner_some hs _ _ _ _ _ _ _ hi.nodup hin
        dsimp only
        have htV := hi.sub t (by simp)
        have hlen : V'.length ≤ n := by simpa using h1.length_le_card
        apply ih
        · constructor
          · exact h1
          · rw [hV']; simp [hi.start]
          · intro q hq
            rw [hQ'] at hq; rw [hV']
            have := hi.sub q
            simp at hq ⊢
            grind
          · intro v hv
            rw [hV'] at hv
            rcases List.mem_append.1 hv with hv | hv
            · exact hi.reach v hv
            · exact (hi.reach t htV).tail (hN v hv).1
          · rcases hi.dst with h | h
            · exact Or.inl h
            · right
              rw [hV']
              simp only [List.mem_append, not_or]
              exact ⟨h, fun hm => (hN _ hm).2 rfl⟩
          · intro v hv hvQ c hc
            by_cases hvt : v = t
            · subst hvt
              exact h3 c (mem_adjacent_of_arrow hc) hc
            · rw [hV'] at hv ⊢
              rw [hQ'] at hvQ
              simp at hvQ
              rcases List.mem_append.1 hv with hv | hv
              · exact List.mem_append_left _ (hi.closed v hv (by simp; grind) c hc)
              · exact absurd hv hvQ.1
        · rw [hV', hQ']
          rw [hV'] at hlen
          simp at hlen hf ⊢
          omega

theorem pathInv_init (G : GG n) (a dst : Fin n) : PathInv G a dst [a] [a] := by
  constructor <;> simp
  · exact ReflTransGen.refl
  · exact Classical.em _

/-- **C05 (path query).** On graphs without doubled edges the search between two different nodes terminates and answers
exactly whether a directed path exists. -/
theorem C05_path_query_exact {G : GG n} (hs : G.Simple) (a b : Fin n) (hab : a ≠ b) :
    ∃ r, G.existsDirectedPath a b = some r ∧ (r = true ↔ G.DirPath a b) := by
  have hn : 0 < n := a.pos
  rcases pathLoop_spec hs a b (n + 2) [a] [a] (pathInv_init G a b) (by simp; omega) with ⟨h1, h2, h3⟩ | ⟨h1, h2⟩
  · exact ⟨true, h1, by simp; exact h3.to_reflTransGen⟩
  · refine ⟨false, h1, ?_⟩
    simp
    rcases h2 with h | h
    · exact absurd h.symm hab
    · exact h

example : let G := run (n := 3) [.addEdge 0 1 .tail .arrow, .addEdge 1 2 .tail .arrow]
    G.existsDirectedPath 0 2 = some true ∧ G.existsDirectedPath 2 0 = some false := by decide

/-- **C05 violated.** On every graph without doubled edges `exists_directed_cycle` terminates and returns `False`,
whatever cycles the graph has: the search from a node to itself has already put that node in `V`, and `c in V` is
tested before `c == node_to`. -/
theorem C05_cycles_never_reported_violated {G : GG n} (hs : G.Simple) :
    (∀ v, G.existsDirectedPath v v = some false) ∧ G.existsDirectedCycle = false := by
  have h : ∀ v, G.existsDirectedPath v v = some false := by
    intro v
    have hn : 0 < n := v.pos
    rcases pathLoop_spec hs v v (n + 2) [v] [v] (pathInv_init G v v) (by simp; omega) with ⟨-, h2, -⟩ | ⟨h1, -⟩
    · exact absurd rfl h2
    · exact h1
  exact ⟨h, by simp [existsDirectedCycle, h]⟩

/-- The directed 3-cycle `0 → 1 → 2 → 0`, built through the public API. -/
def threeCycle : GG 3 := run [.addEdge 0 1 .tail .arrow, .addEdge 1 2 .tail .arrow, .addEdge 2 0 .tail .arrow]

theorem C05_three_cycle_violated : threeCycle.Simple ∧ threeCycle.Cyclic ∧ threeCycle.existsDirectedCycle = false := by
  have hs : threeCycle.Simple := by unfold GG.Simple; decide
  refine ⟨hs, ⟨0, ?_⟩, (C05_cycles_never_reported_violated hs).2⟩
  exact ((TransGen.single (by decide : threeCycle.Arrow 0 1)).tail (by decide : threeCycle.Arrow 1 2)).tail
    (by decide : threeCycle.Arrow 2 0)

/-! ## C09 -/

theorem mem_parents_simple {G : GG n} (hs : G.Simple) (p v : Fin n) : p ∈ G.parents v ↔ G.Arrow p v := by
  have h1 := hs p v
  simp [parents, List.mem_finRange, GG.Arrow]
  grind

/-- every node is preceded by all its parents -/
def TopoPrefix (G : GG n) (l : List (Fin n)) : Prop :=
  ∀ l1 x l2, l = l1 ++ x :: l2 → ∀ p, G.Arrow p x → p ∈ l1

theorem TopoPrefix.snoc {G : GG n} {l : List (Fin n)} (h : TopoPrefix G l) (v : Fin n)
    (hv : ∀ p, G.Arrow p v → p ∈ l) : TopoPrefix G (l ++ [v]) := by
  intro l1 x l2 he p hp
  rcases List.eq_nil_or_concat l2 with rfl | ⟨l2', y, rfl⟩
  · have := List.append_inj' he rfl
    obtain ⟨rfl, h2⟩ := this
    simp at h2
    subst h2
    exact hv p hp
  · have he' : l ++ [v] = (l1 ++ x :: l2') ++ [y] := by simpa using he
    obtain ⟨rfl, -⟩ := List.append_inj' he' rfl
    exact h _ _ _ rfl p hp

theorem orderSweep_spec {G : GG n} (hs : G.Simple) (vs found sub : List (Fin n)) (ht : TopoPrefix G found) :
    ∃ A, (orderSweep G vs found sub).1 = found ++ A ∧ (orderSweep G vs found sub).2 = sub ++ A ∧
      A.Sublist vs ∧ TopoPrefix G (found ++ A) ∧
      (∀ v ∈ vs, (∀ p, G.Arrow p v → p ∈ found) → v ∈ A) := by
  induction vs generalizing found sub with
  | nil => exact ⟨[], by simp [orderSweep, ht]⟩
  | cons v vs ih =>
    rw [orderSweep]
    split
    · rename_i hall
      have hv : ∀ p, G.Arrow p v → p ∈ found := by
        intro p hp
        simp at hall
        exact hall p ((mem_parents_simple hs p v).2 hp)
      obtain ⟨A, h1, h2, h3, h4, h5⟩ := ih (found ++ [v]) (sub ++ [v]) (ht.snoc v hv)
      refine ⟨v :: A, by simp [h1], by simp [h2], h3.cons_cons v, by simpa using h4, ?_⟩
      intro w hw hpw
      rcases List.mem_cons.1 hw with rfl | hw
      · simp
      · exact List.mem_cons_of_mem _ (h5 w hw fun p hp => by simp [hpw p hp])
    · rename_i hall
      obtain ⟨A, h1, h2, h3, h4, h5⟩ := ih found sub ht
      refine ⟨A, h1, h2, h3.cons v, h4, ?_⟩
      intro w hw hpw
      rcases List.mem_cons.1 hw with rfl | hw
      · exfalso
        apply hall
        simp
        intro p hp
        exact hpw p ((mem_parents_simple hs p w).1 hp)
      · exact h5 w hw hpw

/-- an acyclic graph has a parentless node in every non-empty set of nodes -/
theorem exists_source {G : GG n} (hac : ¬ G.Cyclic) (S : List (Fin n)) (hS : S ≠ []) :
    ∃ v ∈ S, ∀ p, G.Arrow p v → p ∉ S := by
  by_contra hcon
  push Not at hcon
  have wf : WellFounded (TransGen G.Arrow) := by
    have : Std.Irrefl (TransGen G.Arrow) := ⟨fun x h => hac ⟨x, h⟩⟩
    exact Finite.wellFounded_of_trans_of_irrefl _
  obtain ⟨v, hv, hmin⟩ := wf.has_min {x | x ∈ S} ⟨S.head hS, List.head_mem hS⟩
  obtain ⟨p, hp, hpS⟩ := hcon v hv
  exact hmin p hpS (TransGen.single hp)

theorem orderLoop_spec {G : GG n} (hs : G.Simple) (hac : ¬ G.Cyclic) (f : Nat) (found nf : List (Fin n))
    (ht : TopoPrefix G found) (hperm : (found ++ nf).Perm (List.finRange n)) (hf : nf.length < f) :
    ∃ l, orderLoop G f found nf = some l ∧ l.Perm (List.finRange n) ∧ TopoPrefix G l := by
  induction f generalizing found nf with
  | zero => omega
  | succ f ih =>
    cases nf with
    | nil => exact ⟨found, rfl, by simpa using hperm, ht⟩
    | cons v vs =>
      rw [orderLoop]
      obtain ⟨A, h1, h2, h3, h4, h5⟩ := orderSweep_spec hs (v :: vs) found [] ht
      rw [h1, h2]
      have hnd : (found ++ v :: vs).Nodup := hperm.nodup_iff.2 (List.nodup_finRange n)
      have hnd' : (v :: vs).Nodup := (List.nodup_append.1 hnd).2.1
      have hp2 : (A ++ (v :: vs).filter fun e => decide (e ∉ A)).Perm (v :: vs) := by
        have hA : A.Nodup := hnd'.sublist h3
        rw [List.perm_ext_iff_of_nodup _ hnd']
        · intro a
          have := h3.subset (a := a)
          simp only [List.mem_append, List.mem_filter, decide_eq_true_eq]
          grind
        · rw [List.nodup_append]
          refine ⟨hA, hnd'.filter _, ?_⟩
          intro a ha b hb
          simp only [List.mem_filter, decide_eq_true_eq] at hb
          rintro rfl
          exact hb.2 ha
      simp only [List.nil_append]
      apply ih _ _ h4
      · rw [List.append_assoc]
        exact (List.Perm.append_left found hp2).trans hperm
      · obtain ⟨s, hsS, hsrc⟩ := exists_source hac (v :: vs) (by simp)
        have hsA : s ∈ A := h5 s hsS fun p hp => by
          have hpm : p ∈ found ++ v :: vs := hperm.mem_iff.2 (List.mem_finRange p)
          rcases List.mem_append.1 hpm with h | h
          · exact h
          · exact absurd h (hsrc p hp)
        have hl := hp2.length_eq
        have : 0 < A.length := List.length_pos_of_mem hsA
        rw [List.length_append] at hl
        omega

/-- **C09.** For every acyclic graph (without doubled edges) `get_causal_ordering` terminates, does not raise, and
returns every node exactly once with each parent before its children. -/
theorem C09_causal_order_topological {G : GG n} (hs : G.Simple) (hac : ¬ G.Cyclic) :
    ∃ l, (∀ fuel, n < fuel → G.causalOrder fuel = .ok l) ∧ l.Perm (List.finRange n) ∧
      ∀ x y, G.Arrow x y → l.idxOf x < l.idxOf y := by
  have hne : G.existsDirectedCycle = false := (C05_cycles_never_reported_violated hs).2
  have key : ∀ fuel, n < fuel → ∃ l, orderLoop G fuel [] (List.finRange n) = some l ∧ l.Perm (List.finRange n) ∧
      TopoPrefix G l := fun fuel hfuel =>
    orderLoop_spec hs hac fuel [] (List.finRange n) (by intro l1 x l2 h; simp at h) (by simp) (by simpa using hfuel)
  have mono : ∀ f g found nf l, orderLoop G f found nf = some l → f ≤ g → orderLoop G g found nf = some l := by
    intro f
    induction f with
    | zero => intro g found nf l h; simp [orderLoop] at h
    | succ f ih =>
      intro g found nf l h hg
      obtain ⟨g, rfl⟩ : ∃ g', g = g' + 1 := ⟨g - 1, by omega⟩
      cases nf with
      | nil => exact h
      | cons v vs => exact ih g _ _ l h (by omega)
  obtain ⟨l, hl, hp, ht⟩ := key (n + 1) (by omega)
  refine ⟨l, ?_, hp, ?_⟩
  · intro fuel hfuel
    have := mono _ fuel _ _ _ hl (by omega)
    simp [causalOrder, hne, this]
  · intro x y hxy
    have hy : y ∈ l := hp.mem_iff.2 (List.mem_finRange y)
    have hnd : l.Nodup := hp.nodup_iff.2 (List.nodup_finRange n)
    obtain ⟨l1, l2, rfl⟩ := List.append_of_mem hy
    have hx := ht l1 y l2 rfl x hxy
    have hy1 : y ∉ l1 := fun h => by
      rw [List.nodup_append] at hnd
      exact hnd.2.2 y h y (by simp) rfl
    rw [List.idxOf_append_of_mem hx, List.idxOf_append_of_notMem hy1]
    have := List.idxOf_lt_length_of_mem hx
    omega

/-- **C09, cyclic inputs.** The guard against cycles never fires, so on a cyclic graph `get_causal_ordering` neither
raises nor returns: no amount of fuel suffices. -/
theorem C09_cyclic_diverges {G : GG n} (hs : G.Simple) (hc : G.Cyclic) (fuel : Nat) :
    G.causalOrder fuel = .outOfFuel := by
  have hne : G.existsDirectedCycle = false := (C05_cycles_never_reported_violated hs).2
  have key : ∀ f found nf, TopoPrefix G found → (found ++ nf).Perm (List.finRange n) →
      orderLoop G f found nf = none := by
    intro f
    induction f with
    | zero => intros; rfl
    | succ f ih =>
      intro found nf ht hperm
      cases nf with
      | nil =>
        exfalso
        obtain ⟨x, hx⟩ := hc
        have hnd : found.Nodup := by
          have := hperm.nodup_iff.2 (List.nodup_finRange n)
          simpa using this
        have hlt : ∀ p y, G.Arrow p y → found.idxOf p < found.idxOf y := by
          intro p y hpy
          have hy : y ∈ found := by
            have := hperm.mem_iff.2 (List.mem_finRange y)
            simpa using this
          obtain ⟨l1, l2, rfl⟩ := List.append_of_mem hy
          have hp := ht l1 y l2 rfl p hpy
          have hy1 : y ∉ l1 := fun h => by
            rw [List.nodup_append] at hnd
            exact hnd.2.2 y h y (by simp) rfl
          rw [List.idxOf_append_of_mem hp, List.idxOf_append_of_notMem hy1]
          have := List.idxOf_lt_length_of_mem hp
          omega
        have : ∀ y, TransGen G.Arrow x y → found.idxOf x < found.idxOf y := by
          intro y hy
          induction hy with
          | single h => exact hlt _ _ h
          | tail _ h ih2 => exact ih2.trans (hlt _ _ h)
        exact lt_irrefl _ (this x hx)
      | cons v vs =>
        rw [orderLoop]
        obtain ⟨A, h1, h2, h3, h4, h5⟩ := orderSweep_spec hs (v :: vs) found [] ht
        rw [h1, h2]
        apply ih _ _ (by simpa using h4)
        have hnd : (found ++ v :: vs).Nodup := hperm.nodup_iff.2 (List.nodup_finRange n)
        have hnd' : (v :: vs).Nodup := (List.nodup_append.1 hnd).2.1
        have hp2 : (A ++ (v :: vs).filter fun e => decide (e ∉ A)).Perm (v :: vs) := by
          have hA : A.Nodup := hnd'.sublist h3
          rw [List.perm_ext_iff_of_nodup _ hnd']
          · intro a
            have := h3.subset (a := a)
            simp only [List.mem_append, List.mem_filter, decide_eq_true_eq]
            grind
          · rw [List.nodup_append]
            refine ⟨hA, hnd'.filter _, ?_⟩
            intro a ha b hb
            simp only [List.mem_filter, decide_eq_true_eq] at hb
            rintro rfl
            exact hb.2 ha
        rw [List.append_assoc]
        simpa using (List.Perm.append_left found hp2).trans hperm
  simp [causalOrder, hne, key fuel [] (List.finRange n) (by intro l1 x l2 h; simp at h) (by simp)]

/-- C09 is not vacuous: `2 → 0 → 1` is acyclic and its causal order is `[2, 0, 1]`; and the 3-cycle diverges. -/
example : let G := run (n := 3) [.addEdge 2 0 .tail .arrow, .addEdge 0 1 .tail .arrow]
    G.causalOrder 4 = .ok [2, 0, 1] := by decide

example (fuel : Nat) : threeCycle.causalOrder fuel = .outOfFuel :=
  C09_cyclic_diverges C05_three_cycle_violated.1 C05_three_cycle_violated.2.1 fuel

end CL
