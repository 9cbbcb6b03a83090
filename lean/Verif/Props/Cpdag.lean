import Verif.Model.Cpdag
import Verif.Proofs.Essential
import Verif.Props.GraphTraversal
import Verif.Props.GraphQueries
import Verif.Proofs.PC

/-!
# C25, C26: `dag2cpdag` computes the essential graph, `mec_check` decides Markov equivalence
-/
namespace CL
open GG Spec Relation
variable {n : Nat}

/-! ## Specification -/

/-- The graph object describes a DAG: every edge is a single directed edge and there is no directed cycle. -/
structure GG.IsDag (G : GG n) : Prop where
  directed : ∀ a b, G.g a b ≠ .null → G.Arrow a b ∨ G.Arrow b a
  acyclic : Acyclic G.Arrow

/-- `a → b` is an edge of the DAG `E` and has this direction in every DAG with the same skeleton and v-structures. -/
def Compelled (E : Fin n → Fin n → Prop) (a b : Fin n) : Prop := E a b ∧ ∀ F, Acyclic F → MarkovEquiv E F → F a b

/-! ## Basic facts about DAG matrices -/

theorem GG.IsDag.arrow_iff {G : GG n} (h : G.IsDag) (i j : Fin n) : G.g j i = .arrow ↔ G.Arrow i j := by
  constructor
  · intro hm
    rcases h.directed j i (by rw [hm]; decide) with h1 | h1
    · rw [h1.1] at hm; cases hm
    · exact h1
  · exact fun h => h.2

theorem GG.IsDag.cases {G : GG n} (h : G.IsDag) (i z : Fin n) : (G.g i z = .null ∨ G.g i z = .tail) ↔ ¬ G.Arrow z i := by
  rw [← h.arrow_iff]
  by_cases hn : G.g i z = .null
  · simp [hn]
  · rcases h.directed i z hn with h1 | h1
    · simp [h1.1]
    · simp [h1.2]

theorem GG.IsDag.adj_iff {G : GG n} (h : G.IsDag) (a b : Fin n) : G.g a b ≠ .null ↔ Adj G.Arrow a b := by
  constructor
  · exact h.directed a b
  · rintro (h | h)
    · rw [h.1]; decide
    · rw [h.2]; decide

theorem GG.IsDag.simple {G : GG n} (h : G.IsDag) : G.Simple := by
  intro a b
  by_cases hn : G.g a b = .null
  · simp [hn]
  · rcases h.directed a b hn with h1 | h1
    · simp [h1.1]
    · simp [h1.2]

theorem GG.IsDag.not_cyclic {G : GG n} (h : G.IsDag) : ¬ G.Cyclic := fun ⟨x, hx⟩ => h.acyclic x hx

/-! ## The edge order -/

/-- The order the code computes: heads from the last node of the causal order to the first, tails from first to last. -/
def edgeSpec (G : GG n) (order : List (Fin n)) : List (Fin n × Fin n) :=
  order.reverse.flatMap fun j => (order.filter fun i => G.g j i == .arrow).map fun i => (i, j)

/-- `e` comes before `f`. -/
def EdgeBefore (order : List (Fin n)) (e f : Fin n × Fin n) : Prop :=
  order.idxOf f.2 < order.idxOf e.2 ∨ (e.2 = f.2 ∧ order.idxOf e.1 < order.idxOf f.1)

theorem mem_edgeSpec {G : GG n} (h : G.IsDag) {order : List (Fin n)} (hall : ∀ v, v ∈ order) (i j : Fin n) :
    (i, j) ∈ edgeSpec G order ↔ G.Arrow i j := by
  unfold edgeSpec
  simp only [List.mem_flatMap, List.mem_reverse, List.mem_map, List.mem_filter, beq_iff_eq, Prod.mk.injEq]
  constructor
  · rintro ⟨j', -, i', ⟨-, h1⟩, rfl, rfl⟩; exact (h.arrow_iff _ _).1 h1
  · intro h1; exact ⟨j, hall j, i, ⟨hall i, (h.arrow_iff _ _).2 h1⟩, rfl, rfl⟩

theorem pairwise_idx {α : Type} [DecidableEq α] {l : List α} (hn : l.Nodup) : l.Pairwise fun a b => l.idxOf a < l.idxOf b := by
  rw [List.pairwise_iff_getElem]
  intro i j hi hj hij
  rw [hn.idxOf_getElem, hn.idxOf_getElem]
  exact hij

theorem edgeSpec_sorted (G : GG n) {order : List (Fin n)} (hn : order.Nodup) :
    (edgeSpec G order).Pairwise (EdgeBefore order) := by
  unfold edgeSpec
  rw [List.pairwise_flatMap]
  refine ⟨fun j _ => ?_, ?_⟩
  · rw [List.pairwise_map]
    exact ((pairwise_idx hn).filter _).imp fun h => Or.inr ⟨rfl, h⟩
  · rw [List.pairwise_reverse]
    refine (pairwise_idx hn).imp fun {a b} hab => ?_
    intro e he f hf
    obtain ⟨x, -, rfl⟩ := List.mem_map.1 he
    obtain ⟨y, -, rfl⟩ := List.mem_map.1 hf
    exact Or.inl hab

theorem EdgeBefore.ne {order : List (Fin n)} {e f : Fin n × Fin n} (h : EdgeBefore order e f) : e ≠ f := by
  rintro rfl
  rcases h with h | h
  · omega
  · omega

theorem edgeSpec_nodup (G : GG n) {order : List (Fin n)} (hn : order.Nodup) : (edgeSpec G order).Nodup :=
  (edgeSpec_sorted G hn).imp fun h => h.ne

theorem find_first {α : Type} [DecidableEq α] (l : List α) (p : α → Bool) (x : α) (hx : x ∈ l) (hp : p x = true)
    (hb : ∀ a, a ∈ l → l.idxOf a < l.idxOf x → p a = false) : l.find? p = some x := by
  induction l with
  | nil => cases hx
  | cons a l ih =>
    by_cases hax : a = x
    · subst hax; simp [List.find?_cons, hp]
    · have h1 : p a = false := hb a (by simp) (by rw [List.idxOf_cons_self, List.idxOf_cons_ne _ hax]; omega)
      rw [List.find?_cons, h1]
      refine ih ((List.mem_cons.1 hx).resolve_left (Ne.symm hax)) fun b hb' hlt => ?_
      by_cases hab : a = b
      · rw [← hab]; exact h1
      · exact hb b (by simp [hb']) (by rw [List.idxOf_cons_ne _ hab, List.idxOf_cons_ne _ hax]; omega)

theorem idxOf_reverse_lt {α : Type} [DecidableEq α] {l : List α} (hn : l.Nodup) {a b : α} (ha : a ∈ l) (hb : b ∈ l)
    (h : l.reverse.idxOf a < l.reverse.idxOf b) : l.idxOf b < l.idxOf a := by
  obtain ⟨i, hi, rfl⟩ := List.getElem_of_mem ha
  obtain ⟨j, hj, rfl⟩ := List.getElem_of_mem hb
  rw [hn.idxOf_getElem, hn.idxOf_getElem]
  have hr := List.nodup_reverse.2 hn
  have key : ∀ k (hk : k < l.length), l.reverse.idxOf l[k] = l.length - 1 - k := by
    intro k hk
    have h1 : l[k] = l.reverse[l.length - 1 - k]'(by rw [List.length_reverse]; omega) := by
      rw [List.getElem_reverse]
      congr 1; omega
    rw [h1, hr.idxOf_getElem]
  rw [key i hi, key j hj] at h
  omega

theorem pick_spec {G : GG n} (h : G.IsDag) {order : List (Fin n)} (hn : order.Nodup) (hall : ∀ v, v ∈ order)
    {p q : List (Fin n × Fin n)} {i j : Fin n} (hs : edgeSpec G order = p ++ (i, j) :: q) :
    pickHead G order p = some j ∧ pickTail G order p j = some i := by
  have hsort := edgeSpec_sorted G hn
  have hnd := edgeSpec_nodup G hn
  rw [hs] at hsort hnd
  have hmem : ∀ a b, G.Arrow a b → (a, b) ∈ p ∨ (a, b) = (i, j) ∨ EdgeBefore order (i, j) (a, b) := by
    intro a b hab
    have := (mem_edgeSpec h hall a b).2 hab
    rw [hs, List.mem_append, List.mem_cons] at this
    rcases this with h1 | h1 | h1
    · exact Or.inl h1
    · exact Or.inr (Or.inl h1)
    · right; right
      rw [List.pairwise_append, List.pairwise_cons] at hsort
      exact hsort.2.1.1 _ h1
  have hij : G.Arrow i j := (mem_edgeSpec h hall i j).1 (by rw [hs]; simp)
  have hnp : (i, j) ∉ p := by
    rw [List.nodup_append] at hnd
    exact fun h1 => hnd.2.2 _ h1 _ (by simp) rfl
  constructor
  · unfold pickHead
    rw [find_first order.reverse _ j (List.mem_reverse.2 (hall j))]
    · simp only [List.any_eq_true, Bool.and_eq_true, beq_iff_eq, decide_eq_true_eq]
      exact ⟨i, List.mem_finRange i, hij.2, hnp⟩
    · intro a _ hlt
      have hlt' := idxOf_reverse_lt hn (hall a) (hall j) hlt
      rw [List.any_eq_false]
      intro b _
      simp only [Bool.and_eq_true, beq_iff_eq, decide_eq_true_eq, not_and, not_not]
      intro hba
      rcases hmem b a ((h.arrow_iff _ _).1 hba) with h1 | h1 | h1
      · exact h1
      · exfalso
        rw [(Prod.mk.inj h1).2] at hlt'; omega
      · exfalso
        rcases h1 with h1 | h1
        · dsimp only at h1; omega
        · have h2 : j = a := h1.1
          rw [h2] at hlt'; omega
  · unfold pickTail
    rw [find_first order _ i (hall i)]
    · simp only [Bool.and_eq_true, beq_iff_eq, decide_eq_true_eq]
      exact ⟨hnp, hij.2⟩
    · intro a _ hlt
      rw [Bool.and_eq_false_iff]
      by_cases haj : G.Arrow a j
      · left
        rcases hmem a j haj with h1 | h1 | h1
        · simpa using h1
        · exfalso; rw [(Prod.mk.inj h1).1] at hlt; omega
        · exfalso
          rcases h1 with h1 | h1
          · dsimp only at h1; omega
          · have := h1.2; dsimp only at this; omega
      · right
        rw [← h.arrow_iff] at haj
        simpa using haj

theorem edgeOrder_run {G : GG n} (h : G.IsDag) {order : List (Fin n)} (hn : order.Nodup) (hall : ∀ v, v ∈ order) (m : Nat) :
    ∀ p q, edgeSpec G order = p ++ q → q.length = m → edgeOrder G order m p = edgeSpec G order := by
  induction m with
  | zero =>
    intro p q hs hl
    rw [List.length_eq_zero_iff.1 hl, List.append_nil] at hs
    rw [hs]; rfl
  | succ m ih =>
    intro p q hs hl
    cases q with
    | nil => cases hl
    | cons e q =>
      obtain ⟨i, j⟩ := e
      obtain ⟨h1, h2⟩ := pick_spec h hn hall hs
      simp only [edgeOrder, h1, h2]
      exact ih (p ++ [(i, j)]) q (by rw [hs, List.append_assoc]; rfl) (by simpa using hl)

theorem GG.IsDag.wf {G : GG n} (h : G.IsDag) : G.WF := by
  constructor
  · intro a b
    have h1 := h.adj_iff a b
    have h2 := h.adj_iff b a
    have h3 : Adj G.Arrow a b ↔ Adj G.Arrow b a := ⟨Adj.symm, Adj.symm⟩
    rw [← not_iff_not]
    exact h1.trans (h3.trans h2.symm)
  · intro a b
    by_cases hn : G.g a b = .null
    · simp [hn]
    · rcases h.directed a b hn with h1 | h1
      · simp [h1.1]
      · simp [h1.2]

theorem GG.IsDag.irrefl {G : GG n} (h : G.IsDag) (a : Fin n) : ¬ G.Arrow a a := h.acyclic.irrefl a

theorem edgeSpec_length {G : GG n} (h : G.IsDag) {order : List (Fin n)} (hn : order.Nodup) (hall : ∀ v, v ∈ order) :
    (edgeSpec G order).length = G.numEdges := by
  rw [numEdges_eq h.wf h.simple]
  let f (e : Fin n × Fin n) : Fin n × Fin n := if e.1 < e.2 then e else (e.2, e.1)
  have hp : ((edgeSpec G order).map f).Perm ((upperPairs n).filter fun p => G.g p.1 p.2 != .null) := by
    rw [List.perm_ext_iff_of_nodup]
    · rintro ⟨a, b⟩
      simp only [List.mem_map, List.mem_filter, mem_upperPairs, bne_iff_ne, ne_eq]
      constructor
      · rintro ⟨⟨i, j⟩, h1, h2⟩
        have h1' := (mem_edgeSpec h hall i j).1 h1
        dsimp only [f] at h2
        split at h2
        · rename_i hlt
          obtain ⟨rfl, rfl⟩ := Prod.mk.inj h2
          exact ⟨hlt, (h.adj_iff _ _).2 (Or.inl h1')⟩
        · rename_i hge
          obtain ⟨rfl, rfl⟩ := Prod.mk.inj h2
          refine ⟨lt_of_le_of_ne (not_lt.1 hge) ?_, (h.adj_iff _ _).2 (Or.inr h1')⟩
          rintro rfl; exact h.irrefl _ h1'
      · rintro ⟨hlt, hnn⟩
        rcases h.directed a b hnn with h1 | h1
        · exact ⟨(a, b), (mem_edgeSpec h hall a b).2 h1, by simp [f, hlt]⟩
        · exact ⟨(b, a), (mem_edgeSpec h hall b a).2 h1, by simp [f, not_lt.2 (le_of_lt hlt)]⟩
    · refine List.Nodup.map_on ?_ (edgeSpec_nodup G hn)
      rintro ⟨a, b⟩ h1 ⟨c, d⟩ h2 heq
      have h1' := (mem_edgeSpec h hall a b).1 h1
      have h2' := (mem_edgeSpec h hall c d).1 h2
      dsimp only [f] at heq
      split at heq <;> split at heq <;> obtain ⟨h3, h4⟩ := Prod.mk.inj heq
      · rw [h3, h4]
      · exfalso; rw [h3, h4] at h1'; exact h.acyclic.asymm h1' h2'
      · exfalso; rw [← h3, ← h4] at h2'; exact h.acyclic.asymm h1' h2'
      · rw [h3, h4]
    · exact nodup_upperPairs.filter _
  rw [← hp.length_eq, List.length_map]

theorem edgeOrder_eq {G : GG n} (h : G.IsDag) {order : List (Fin n)} (hn : order.Nodup) (hall : ∀ v, v ∈ order) :
    edgeOrder G order G.numEdges [] = edgeSpec G order :=
  edgeOrder_run h hn hall _ [] _ rfl (edgeSpec_length h hn hall)

/-! ## The labelling loop -/

theorem scanCompelled_spec (G : GG n) (eo : List (Fin n × Fin n)) (j : Fin n) :
    ∀ (es : List (Fin n × Fin n)) (s : Sign n), (∀ e ∈ es, e.2 ≠ j) →
      ((∃ e ∈ es, s e = 1 ∧ G.g j e.1 ≠ .arrow) → scanCompelled G eo j es s = (setRows eo (fun f => f.2 == j) 1 s, true)) ∧
      ((∀ e ∈ es, s e = 1 → G.g j e.1 = .arrow) →
        (scanCompelled G eo j es s).2 = false ∧ ∀ f, (scanCompelled G eo j es s).1 f =
          if f ∈ eo ∧ f.2 = j ∧ (∃ e ∈ es, e.1 = f.1 ∧ s e = 1) then 1 else s f) := by
  intro es
  induction es with
  | nil =>
    intro s _
    refine ⟨?_, fun _ => ⟨rfl, fun f => ?_⟩⟩
    · rintro ⟨e, he, -⟩; cases he
    · simp [scanCompelled]
  | cons e es ih =>
    intro s hes
    have hej := hes e (by simp)
    have hes' : ∀ e ∈ es, e.2 ≠ j := fun e he => hes e (by simp [he])
    by_cases h1 : s e = 1
    · by_cases h2 : G.g j e.1 = .arrow
      · -- recursive call with one more label
        let s' := setRows eo (fun f => f.1 == e.1 && f.2 == j) 1 s
        have hs' : ∀ f, f.2 ≠ j → s' f = s f := by
          intro f hf; simp [s', setRows, hf]
        have hstep : scanCompelled G eo j (e :: es) s = scanCompelled G eo j es s' := by
          simp [scanCompelled, h1, h2, s']
        obtain ⟨g1, g2⟩ := ih s' hes'
        rw [hstep]
        constructor
        · rintro ⟨e', he', h3, h4⟩
          rcases List.mem_cons.1 he' with rfl | he'
          · exact absurd h2 h4
          · rw [g1 ⟨e', he', by rw [hs' e' (hes' e' he')]; exact h3, h4⟩]
            refine Prod.ext ?_ rfl
            funext f
            simp only [setRows, s', beq_iff_eq, Bool.and_eq_true]
            grind
        · intro hall
          obtain ⟨g3, g4⟩ := g2 (by
            intro e' he' h3
            rw [hs' e' (hes' e' he')] at h3
            exact hall e' (by simp [he']) h3)
          refine ⟨g3, fun f => ?_⟩
          rw [g4 f]
          have : (∃ e' ∈ es, e'.1 = f.1 ∧ s' e' = 1) ↔ ∃ e' ∈ es, e'.1 = f.1 ∧ s e' = 1 := by
            constructor <;> rintro ⟨e', he', h3, h4⟩ <;> refine ⟨e', he', h3, ?_⟩
            · rw [← hs' e' (hes' e' he')]; exact h4
            · rw [hs' e' (hes' e' he')]; exact h4
          simp only [this]
          simp only [s', setRows, List.mem_cons, exists_eq_or_imp, h1, Bool.and_eq_true, beq_iff_eq, and_true]
          have hc : (e.1 = f.1) ↔ (f.1 = e.1) := eq_comm
          simp only [hc]
          by_cases p4 : ∃ e' ∈ es, e'.1 = f.1 ∧ s e' = 1 <;> simp only [p4] <;>
            by_cases p1 : f ∈ eo <;> by_cases p2 : f.2 = j <;> by_cases p3 : f.1 = e.1 <;> simp [p1, p2, p3]
      · have hstep : scanCompelled G eo j (e :: es) s = (setRows eo (fun f => f.2 == j) 1 s, true) := by
          simp [scanCompelled, h1, h2]
        refine ⟨fun _ => hstep, fun hall => absurd (hall e (by simp) h1) h2⟩
    · have hstep : scanCompelled G eo j (e :: es) s = scanCompelled G eo j es s := by
        simp [scanCompelled, h1]
      rw [hstep]
      obtain ⟨g1, g2⟩ := ih s hes'
      constructor
      · rintro ⟨e', he', h3, h4⟩
        rcases List.mem_cons.1 he' with rfl | he'
        · exact absurd h3 h1
        · exact g1 ⟨e', he', h3, h4⟩
      · intro hall
        obtain ⟨g3, g4⟩ := g2 fun e' he' => hall e' (by simp [he'])
        refine ⟨g3, fun f => ?_⟩
        rw [g4 f]
        simp only [List.mem_cons, exists_eq_or_imp, h1, and_false, false_or]

/-- The compelled labels as a relation. -/
def isComp (s : Sign n) (a b : Fin n) : Prop := s (a, b) = 1

theorem labelEdge_spec {G : GG n} (h : G.IsDag) {eo : List (Fin n × Fin n)} (hm : ∀ a b, (a, b) ∈ eo ↔ G.Arrow a b)
    {i j : Fin n} (hij : G.Arrow i j) {s : Sign n} (hsub : ∀ a b, s (a, b) = 1 → G.Arrow a b)
    (h0 : ∀ z, G.Arrow z j → s (z, j) = 0) :
    (∀ f, f.2 ≠ j → labelEdge G eo i j s f = s f) ∧ (∀ z, ¬ G.Arrow z j → labelEdge G eo i j s (z, j) = s (z, j)) ∧
      ∀ z, G.Arrow z j → labelEdge G eo i j s (z, j) ≠ 0 ∧
        (labelEdge G eo i j s (z, j) = 1 ↔ Forced G.Arrow (isComp s) i j ∨ s (z, i) = 1) := by
  have hne : i ≠ j := by rintro rfl; exact h.irrefl _ hij
  let es := eo.filter fun e => e.2 == i
  have hes : ∀ e ∈ es, e.2 ≠ j := by
    intro e he
    have : e.2 = i := by simpa using (List.mem_filter.1 he).2
    rw [this]; exact hne
  have hesm : ∀ w, (w, i) ∈ es ↔ G.Arrow w i := by
    intro w; simp [es, List.mem_filter, hm]
  have hes2 : ∀ e ∈ es, e = (e.1, i) := by
    intro e he
    have : e.2 = i := by simpa using (List.mem_filter.1 he).2
    exact Prod.ext rfl this
  obtain ⟨g1, g2⟩ := scanCompelled_spec G eo j es s hes
  by_cases hbad : ∃ e ∈ es, s e = 1 ∧ G.g j e.1 ≠ .arrow
  · have hF : Forced G.Arrow (isComp s) i j := by
      obtain ⟨e, he, h1, h2⟩ := hbad
      rw [hes2 e he] at h1
      exact Or.inl ⟨e.1, h1, fun h3 => h2 ((h.arrow_iff _ _).2 h3)⟩
    have heq : labelEdge G eo i j s = setRows eo (fun f => f.2 == j) 1 s := by
      unfold labelEdge
      rw [show scanCompelled G eo j (eo.filter fun e => e.2 == i) s = _ from g1 hbad]
      simp
    rw [heq]
    refine ⟨fun f hf => by simp [setRows, hf], fun z hz => ?_, fun z hz => ?_⟩
    · simp [setRows, hm, hz]
    · have : setRows eo (fun f => f.2 == j) 1 s (z, j) = 1 := by simp [setRows, hm, hz]
      rw [this]
      exact ⟨by decide, ⟨fun _ => Or.inl hF, fun _ => rfl⟩⟩
  · have hgood : ∀ e ∈ es, s e = 1 → G.g j e.1 = .arrow := by
      intro e he h1
      by_contra h2
      exact hbad ⟨e, he, h1, h2⟩
    obtain ⟨g3, g4⟩ := g2 hgood
    have hU : hasUnrelatedParent G i j = true ↔ ∃ z, G.Arrow z j ∧ z ≠ i ∧ ¬ G.Arrow z i := by
      unfold hasUnrelatedParent
      simp only [List.any_eq_true, List.mem_finRange, true_and, Bool.and_eq_true, beq_iff_eq, bne_iff_ne, ne_eq,
        Bool.or_eq_true, h.arrow_iff, h.cases, and_assoc]
    have hF : Forced G.Arrow (isComp s) i j ↔ hasUnrelatedParent G i j = true := by
      rw [hU]
      constructor
      · rintro (⟨w, hw, hnw⟩ | h1)
        · exact absurd ((h.arrow_iff _ _).1 (hgood (w, i) ((hesm w).2 (hsub _ _ hw)) hw)) hnw
        · exact h1
      · exact Or.inr
    have hval : ∀ f, labelEdge G eo i j s f =
        setRows eo (fun f' => f'.2 == j && setRows eo (fun f => f.1 == i && f.2 == j)
          (if hasUnrelatedParent G i j then 1 else -1) (scanCompelled G eo j es s).1 f' == 0)
          (if hasUnrelatedParent G i j then 1 else -1)
          (setRows eo (fun f => f.1 == i && f.2 == j) (if hasUnrelatedParent G i j then 1 else -1)
            (scanCompelled G eo j es s).1) f := by
      intro f
      unfold labelEdge
      have : (scanCompelled G eo j (eo.filter fun e => e.2 == i) s).2 = false := g3
      simp only [this, Bool.false_eq_true, if_false, es]
    refine ⟨fun f hf => ?_, fun z hz => ?_, fun z hz => ?_⟩
    · rw [hval]
      simp [setRows, hf, g4]
    · rw [hval]
      simp [setRows, hm, hz, g4]
    · have hex : (∃ e ∈ es, e.1 = z ∧ s e = 1) ↔ s (z, i) = 1 := by
        constructor
        · rintro ⟨e, he, rfl, h1⟩; rw [hes2 e he] at h1; exact h1
        · intro h1; exact ⟨(z, i), (hesm z).2 (hsub _ _ h1), rfl, h1⟩
      have hz' : (z, j) ∈ eo := (hm z j).2 hz
      have hiz : s (i, i) ≠ 1 := fun h1 => h.irrefl _ (hsub _ _ h1)
      rw [hval, hF]
      by_cases hu : hasUnrelatedParent G i j = true
      · simp only [setRows, hz', g4, hex, h0 z hz, hu, if_true, true_and, beq_self_eq_true, Bool.and_true, Bool.true_and]
        by_cases hzi : z = i
        · subst hzi
          simp [hiz]
        · by_cases hc : s (z, i) = 1
          · simp [hzi, hc]
          · simp [hzi, hc]
      · have hu' : hasUnrelatedParent G i j = false := by simpa using hu
        simp only [setRows, hz', g4, hex, h0 z hz, hu', true_and, beq_self_eq_true, Bool.and_true, Bool.true_and,
          Bool.false_eq_true, if_false, false_or]
        by_cases hzi : z = i
        · subst hzi
          simp [hiz]
        · by_cases hc : s (z, i) = 1
          · simp [hzi, hc]
          · simp [hzi, hc]

/-- Invariant of the labelling loop. -/
structure LabInv (G : GG n) (τ : Fin n → Nat) (s : Sign n) : Prop where
  sub : ∀ a b, s (a, b) ≠ 0 → G.Arrow a b
  whole : ∀ a b y, G.Arrow a y → G.Arrow b y → s (a, y) = 0 → s (b, y) = 0
  lower : ∀ a y b x, s (a, y) ≠ 0 → G.Arrow b x → τ x < τ y → s (b, x) ≠ 0
  lab : ∀ x y, LastParent G.Arrow τ x y → s (x, y) ≠ 0 → ∀ z,
    isComp s z y ↔ G.Arrow z y ∧ (Forced G.Arrow (isComp s) x y ∨ isComp s z x)

theorem labInv_init (G : GG n) (τ : Fin n → Nat) : LabInv G τ fun _ => 0 :=
  ⟨by simp, by simp, by simp, by simp⟩

theorem labelEdge_inv {G : GG n} (h : G.IsDag) {eo : List (Fin n × Fin n)} (hm : ∀ a b, (a, b) ∈ eo ↔ G.Arrow a b)
    {τ : Fin n → Nat} (htopo : ∀ a b, G.Arrow a b → τ a < τ b) {s : Sign n} (hi : LabInv G τ s) {i j : Fin n}
    (hlast : LastParent G.Arrow τ i j) (hinj : ∀ a b, τ a = τ b → a = b) (h0 : s (i, j) = 0)
    (hfirst : ∀ a b, G.Arrow a b → s (a, b) = 0 → τ j ≤ τ b) : LabInv G τ (labelEdge G eo i j s) := by
  have hij := hlast.1
  obtain ⟨g1, g2, g3⟩ := labelEdge_spec h hm hij (fun a b hc => hi.sub a b (by rw [hc]; decide))
    (fun z hz => hi.whole i z j hij hz h0)
  have hother : ∀ a b, b ≠ j → labelEdge G eo i j s (a, b) = s (a, b) := fun a b hb => g1 (a, b) hb
  refine ⟨?_, ?_, ?_, ?_⟩
  · intro a b hs
    by_cases hb : b = j
    · subst hb
      by_contra hna
      rw [g2 a hna] at hs
      exact hna (hi.sub a b hs)
    · rw [hother a b hb] at hs; exact hi.sub a b hs
  · intro a b y ha hb hs
    by_cases hy : y = j
    · subst hy; exact absurd hs (g3 a ha).1
    · rw [hother _ _ hy] at hs ⊢; exact hi.whole a b y ha hb hs
  · intro a y b x hs hbx hlt
    by_cases hx : x = j
    · subst hx; exact (g3 b hbx).1
    · rw [hother _ _ hx]
      by_cases hy : y = j
      · subst hy
        intro hz
        have := hfirst b x hbx hz
        omega
      · rw [hother _ _ hy] at hs
        exact hi.lower a y b x hs hbx hlt
  · intro x y hxy hs z
    have hlt := htopo _ _ hxy.1
    by_cases hy : y = j
    · subst hy
      have hxi : x = i := hinj _ _ (le_antisymm (hlast.2 x hxy.1) (hxy.2 i hij))
      subst hxi
      have hxj : x ≠ y := by rintro rfl; omega
      have hFeq : Forced G.Arrow (isComp (labelEdge G eo x y s)) x y ↔ Forced G.Arrow (isComp s) x y := by
        unfold Forced isComp
        simp only [hother _ _ hxj]
      by_cases hz : G.Arrow z y
      · rw [show isComp (labelEdge G eo x y s) z y ↔ _ from (g3 z hz).2, hFeq]
        simp only [isComp, hother _ _ hxj, hz, true_and]
      · constructor
        · intro hc
          exfalso
          unfold isComp at hc
          rw [g2 z hz] at hc
          exact hz (hi.sub z y (by rw [hc]; decide))
        · exact fun hc => absurd hc.1 hz
    · rw [hother _ _ hy] at hs
      have hxj : x ≠ j := by
        rintro rfl
        -- `y` is labelled although its parent's head `x = j` comes earlier and is unknown
        exact hi.lower x y i x hs hij hlt h0
      have h1 := hi.lab x y hxy hs z
      unfold Forced isComp at h1 ⊢
      simp only [hother _ _ hy, hother _ _ hxj]
      exact h1

theorem find_last {α : Type} {l : List α} {R : α → α → Prop} (hs : l.Pairwise R) {p : α → Bool} {e : α}
    (h : l.reverse.find? p = some e) : p e = true ∧ e ∈ l ∧ ∀ f ∈ l, p f = true → f = e ∨ R f e := by
  rw [List.find?_eq_some_iff_append] at h
  obtain ⟨hp, as, bs, heq, hno⟩ := h
  have hl : l = bs.reverse ++ e :: as.reverse := by
    have := congrArg List.reverse heq
    simpa using this
  refine ⟨hp, by rw [hl]; simp, fun f hf hpf => ?_⟩
  rw [hl, List.mem_append, List.mem_cons] at hf
  rcases hf with hf | hf | hf
  · right
    rw [hl, List.pairwise_append] at hs
    exact hs.2.2 f hf e (by simp)
  · exact Or.inl hf
  · have := hno f (List.mem_reverse.1 hf)
    rw [hpf] at this; cases this

/-- The number of unknown edges. -/
def unknown (eo : List (Fin n × Fin n)) (s : Sign n) : Nat := eo.countP fun e => s e == 0

theorem labelLoop_spec {G : GG n} (h : G.IsDag) {order : List (Fin n)} (hn : order.Nodup) (hall : ∀ v, v ∈ order)
    (htopo : ∀ a b, G.Arrow a b → order.idxOf a < order.idxOf b) (k : Nat) :
    ∀ s : Sign n, unknown (edgeSpec G order) s = k → LabInv G order.idxOf s →
      ∃ r, (∀ f, k < f → labelLoop G (edgeSpec G order) f s = some r) ∧ LabInv G order.idxOf r ∧
        ∀ a b, G.Arrow a b → r (a, b) ≠ 0 := by
  have hinj : ∀ a b, order.idxOf a = order.idxOf b → a = b := fun a b he => (List.idxOf_inj (hall a)).1 he
  have hm := mem_edgeSpec h hall
  induction k using Nat.strong_induction_on with
  | _ k ih =>
    intro s hk hi
    cases hf : (edgeSpec G order).reverse.find? fun e => s e == 0 with
    | none =>
      refine ⟨s, fun f hkf => ?_, hi, fun a b hab h0 => ?_⟩
      · obtain ⟨f, rfl⟩ : ∃ g, f = g + 1 := ⟨f - 1, by omega⟩
        simp only [labelLoop, hf]
      · have := List.find?_eq_none.1 hf (a, b) (List.mem_reverse.2 ((hm a b).2 hab))
        simp [h0] at this
    | some e =>
      obtain ⟨i, j⟩ := e
      obtain ⟨hp, he, hlast⟩ := find_last (edgeSpec_sorted G hn) hf
      have h0 : s (i, j) = 0 := by simpa using hp
      have hij := (hm i j).1 he
      have hunk : ∀ a b, G.Arrow a b → s (a, b) = 0 → (a, b) = (i, j) ∨ EdgeBefore order (a, b) (i, j) :=
        fun a b hab hz => hlast (a, b) ((hm a b).2 hab) (by simp [hz])
      have hL : LastParent G.Arrow order.idxOf i j := by
        refine ⟨hij, fun z hz => ?_⟩
        rcases hunk z j hz (hi.whole i z j hij hz h0) with h1 | h1 | h1
        · rw [(Prod.mk.inj h1).1]
        · dsimp only at h1; omega
        · have := h1.2; dsimp only at this ⊢; omega
      have hfirst : ∀ a b, G.Arrow a b → s (a, b) = 0 → order.idxOf j ≤ order.idxOf b := by
        intro a b hab hz
        rcases hunk a b hab hz with h1 | h1 | h1
        · rw [(Prod.mk.inj h1).2]
        · dsimp only at h1; omega
        · have : b = j := h1.1
          rw [this]
      have hi' := labelEdge_inv h (eo := edgeSpec G order) hm htopo hi hL hinj h0 hfirst
      obtain ⟨g1, g2, g3⟩ := labelEdge_spec h (eo := edgeSpec G order) hm hij
        (fun a b hc => hi.sub a b (by rw [hc]; decide)) (fun z hz => hi.whole i z j hij hz h0)
      have hlt : unknown (edgeSpec G order) (labelEdge G (edgeSpec G order) i j s) < k := by
        rw [← hk]
        refine countP_lt _ _ _ ?_ (i, j) he (by simp [h0]) (by simp [(g3 i hij).1])
        rintro ⟨a, b⟩ hz
        by_cases hb : b = j
        · subst hb
          by_cases ha : G.Arrow a b
          · exact absurd (by simpa using hz) (g3 a ha).1
          · rw [g2 a ha] at hz; exact hz
        · rw [g1 (a, b) hb] at hz; exact hz
      obtain ⟨r, h1, h2, h3⟩ := ih _ hlt _ rfl hi'
      refine ⟨r, fun f hkf => ?_, h2, h3⟩
      obtain ⟨f, rfl⟩ : ∃ g, f = g + 1 := ⟨f - 1, by omega⟩
      simp only [labelLoop, hf]
      exact h1 f (by omega)

/-! ## The output graph -/

theorem addTail_g {G : GG n} {x y : Fin n} (h : G.g x y = .null) (h' : G.g y x = .null) (m : Bool) (a b : Fin n) :
    (G.addEdge (mkEdge x y .tail (if m then .arrow else .tail))).2.g a b =
      if a = x ∧ b = y then .tail else if a = y ∧ b = x then (if m then .arrow else .tail) else G.g a b := by
  cases m <;> simp [addEdge, mkEdge, pointingLeft, h, h', upd_apply] <;> grind

theorem buildCpdag_g (s : Sign n) (eo : List (Fin n × Fin n)) :
    (∀ e ∈ eo, (e.2, e.1) ∉ eo) → eo.Nodup → ∀ a b, (buildCpdag eo s).g a b =
      if (a, b) ∈ eo then .tail else if (b, a) ∈ eo then (if s (b, a) = 1 then .arrow else .tail) else .null := by
  unfold buildCpdag
  induction eo using List.reverseRecOn with
  | nil => intro _ _ a b; simp
  | append_singleton eo e ih =>
    intro hrev hn a b
    rw [List.foldl_append, List.foldl_cons, List.foldl_nil]
    have hrev' : ∀ e ∈ eo, (e.2, e.1) ∉ eo := fun f hf hf' => hrev f (by simp [hf]) (by simp [hf'])
    have hn' : eo.Nodup ∧ e ∉ eo := by
      rw [List.nodup_append] at hn
      exact ⟨hn.1, fun h => hn.2.2 e h e (by simp) rfl⟩
    have hI := ih hrev' hn'.1
    have hr : (e.2, e.1) ∉ eo := fun h => hrev e (by simp) (by simp [h])
    have hse : ¬ ((e.2, e.1) = e) := fun h => hrev e (by simp) (by rw [h]; simp)
    have key := addTail_g (G := eo.foldl (fun H e => (H.addEdge (mkEdge e.1 e.2 .tail (if s e = 1 then .arrow else .tail))).2)
      (GG.empty n)) (x := e.1) (y := e.2) (by rw [hI]; simp [hn'.2, hr]) (by rw [hI]; simp [hn'.2, hr]) (decide (s e = 1)) a b
    simp only [decide_eq_true_eq] at key
    rw [key, hI a b]
    simp only [List.mem_append, List.mem_singleton]
    obtain ⟨x, y⟩ := e
    simp only [Prod.mk.injEq]
    dsimp only at *
    by_cases h1 : a = x ∧ b = y
    · simp [h1]
    · by_cases h2 : a = y ∧ b = x
      · obtain ⟨rfl, rfl⟩ := h2
        simp [h1, hr, hn'.2]
      · have h3 : ¬ (b = x ∧ a = y) := fun h => h2 ⟨h.2, h.1⟩
        simp [h1, h2, h3]

theorem cpdag_labelling {G : GG n} (h : G.IsDag) : ∃ (order : List (Fin n)) (s : Sign n),
    (∀ fuel, n * n + n < fuel → G.dag2cpdag fuel = .ok (buildCpdag (edgeSpec G order) s)) ∧ order.Nodup ∧ (∀ v, v ∈ order) ∧
      Labelling G.Arrow (isComp s) order.idxOf := by
  obtain ⟨order, ho, hperm, htopo⟩ := C09_causal_order_topological h.simple h.not_cyclic
  have hn : order.Nodup := hperm.nodup_iff.2 (List.nodup_finRange n)
  have hall : ∀ v, v ∈ order := fun v => hperm.mem_iff.2 (List.mem_finRange v)
  obtain ⟨s, h1, h2, h3⟩ := labelLoop_spec h hn hall htopo _ (fun _ => 0) rfl (labInv_init G _)
  refine ⟨order, s, fun fuel hf => ?_, hn, hall, ?_⟩
  · have hk : unknown (edgeSpec G order) (fun _ => 0) ≤ n * n := by
      refine le_trans List.countP_le_length ?_
      rw [edgeSpec_length h hn hall, numEdges_eq h.wf h.simple]
      refine le_trans (List.length_filter_le _ _) ?_
      have : (upperPairs n).length ≤ (allPairs n).length :=
        (nodup_upperPairs.subperm fun p _ => mem_allPairs p).length_le
      rwa [length_allPairs] at this
    unfold dag2cpdag
    rw [ho fuel (by omega)]
    simp only [edgeOrder_eq h hn hall, h1 fuel (by omega)]
  · exact ⟨htopo, fun a b he => (List.idxOf_inj (hall a)).1 he, fun a b hc => h2.sub a b (by rw [hc]; decide),
      fun x y hxy z => h2.lab x y hxy (h3 x y hxy.1) z⟩

/-- **C25.** For every DAG, `dag2cpdag` terminates and returns the essential graph: it has the same adjacencies; the edge
between `a` and `b` is directed `a → b` exactly when `a → b` is in the DAG and has this direction in *every* DAG with the same
skeleton and v-structures; all other edges are undirected. -/
theorem C25_essential_graph {G : GG n} (h : G.IsDag) : ∃ H : GG n,
    (∀ fuel, n * n + n < fuel → G.dag2cpdag fuel = .ok H) ∧ ∀ a b,
      (H.g a b = .null ↔ ¬ Adj G.Arrow a b) ∧
      (H.Arrow a b ↔ Compelled G.Arrow a b) ∧
      ((H.g a b = .tail ∧ H.g b a = .tail) ↔
        Adj G.Arrow a b ∧ ¬ Compelled G.Arrow a b ∧ ¬ Compelled G.Arrow b a) := by
  obtain ⟨order, s, hrun, hn, hall, L⟩ := cpdag_labelling h
  have hm := mem_edgeSpec h hall
  have hg := buildCpdag_g s (edgeSpec G order) (by
    rintro ⟨a, b⟩ h1 h2
    exact h.acyclic.asymm ((hm a b).1 h1) ((hm b a).1 h2)) (edgeSpec_nodup G hn)
  have hc : ∀ a b, s (a, b) = 1 ↔ Compelled G.Arrow a b := fun a b =>
    L.iff (l := order.reverse) (List.nodup_reverse.2 hn) (fun a => List.mem_reverse.2 (hall a))
      (by rw [List.pairwise_reverse]; exact pairwise_idx hn) a b
  refine ⟨_, hrun, fun a b => ?_⟩
  rw [show (buildCpdag (edgeSpec G order) s).Arrow a b ↔ (buildCpdag (edgeSpec G order) s).g a b = .tail ∧
    (buildCpdag (edgeSpec G order) s).g b a = .arrow from Iff.rfl, hg a b, hg b a]
  simp only [hm]
  have e1 := hc a b
  have e2 := hc b a
  have c1 : Compelled G.Arrow a b → G.Arrow a b := fun h => h.1
  have c2 : Compelled G.Arrow b a → G.Arrow b a := fun h => h.1
  have as : G.Arrow a b → ¬ G.Arrow b a := h.acyclic.asymm
  unfold Adj
  rw [← e1, ← e2] at *
  clear hg hc hrun L e1 e2 hm
  refine ⟨?_, ?_, ?_⟩ <;> by_cases p : G.Arrow a b <;> by_cases q : G.Arrow b a <;> by_cases r : s (a, b) = 1 <;>
    by_cases t : s (b, a) = 1 <;> simp_all

/-- Consequence: every v-structure of the DAG is directed in the output. -/
theorem C25_colliders_directed {G : GG n} (h : G.IsDag) {a b c : Fin n} (hv : UnshieldedCollider G.Arrow a b c) {H : GG n} {fuel : Nat}
    (hf : n * n + n < fuel) (hr : G.dag2cpdag fuel = .ok H) : H.Arrow a b ∧ H.Arrow c b := by
  obtain ⟨H', h1, h2⟩ := C25_essential_graph h
  have : H' = H := by have := h1 fuel hf; rw [hr] at this; injection this with this; exact this.symm
  subst this
  refine ⟨(h2 a b).2.1.2 ⟨hv.2.2.1, fun F _ he => ((he.2 a b c).1 hv).2.2.1⟩,
    (h2 c b).2.1.2 ⟨hv.2.2.2, fun F _ he => ((he.2 a b c).1 hv).2.2.2⟩⟩

theorem MarkovEquiv.symm' {E F : Fin n → Fin n → Prop} (h : MarkovEquiv E F) : MarkovEquiv F E :=
  ⟨fun a b => (h.1 a b).symm, fun a b c => (h.2 a b c).symm⟩

theorem MarkovEquiv.trans' {E F K : Fin n → Fin n → Prop} (h : MarkovEquiv E F) (h' : MarkovEquiv F K) : MarkovEquiv E K :=
  ⟨fun a b => (h.1 a b).trans (h'.1 a b), fun a b c => (h.2 a b c).trans (h'.2 a b c)⟩

theorem compelled_congr {E F : Fin n → Fin n → Prop} (hE : Acyclic E) (hF : Acyclic F) (h : MarkovEquiv E F) (a b : Fin n) :
    Compelled E a b ↔ Compelled F a b :=
  ⟨fun hc => ⟨hc.2 F hF h, fun K hK hk => hc.2 K hK (MarkovEquiv.trans' h hk)⟩,
    fun hc => ⟨hc.2 E hE (MarkovEquiv.symm' h), fun K hK hk => hc.2 K hK (MarkovEquiv.trans' (MarkovEquiv.symm' h) hk)⟩⟩

/-- **C26.** For all pairs of DAGs over the same nodes `mec_check` returns, and it returns `True` exactly when the two DAGs
have the same adjacencies and the same v-structures. -/
theorem C26_mec_check_exact {G K : GG n} (hG : G.IsDag) (hK : K.IsDag) {fuel : Nat} (hf : n * n + n < fuel) :
    ∃ r, mecCheck G K fuel = .ok r ∧ (r = true ↔ MarkovEquiv G.Arrow K.Arrow) := by
  obtain ⟨P, hP, sP⟩ := C25_essential_graph hG
  obtain ⟨Q, hQ, sQ⟩ := C25_essential_graph hK
  refine ⟨(List.finRange n).all fun i => (List.finRange n).all fun j => P.g i j == Q.g i j,
    by unfold mecCheck; simp only [hP fuel hf, hQ fuel hf], ?_⟩
  simp only [List.all_eq_true, List.mem_finRange, true_imp_iff, beq_iff_eq]
  -- every mark of the output is determined
  have mark : ∀ {G P : GG n}, G.IsDag → (∀ a b, (P.g a b = .null ↔ ¬ Adj G.Arrow a b) ∧
      (P.Arrow a b ↔ Compelled G.Arrow a b) ∧ ((P.g a b = .tail ∧ P.g b a = .tail) ↔
        Adj G.Arrow a b ∧ ¬ Compelled G.Arrow a b ∧ ¬ Compelled G.Arrow b a)) → ∀ a b,
      (¬ Adj G.Arrow a b → P.g a b = .null) ∧ (Compelled G.Arrow a b → P.g a b = .tail) ∧
      (Compelled G.Arrow b a → P.g a b = .arrow) ∧
      (Adj G.Arrow a b → ¬ Compelled G.Arrow a b → ¬ Compelled G.Arrow b a → P.g a b = .tail) := by
    intro G P _ sp a b
    exact ⟨(sp a b).1.2, fun h => ((sp a b).2.1.2 h).1, fun h => ((sp b a).2.1.2 h).2, fun h1 h2 h3 =>
      ((sp a b).2.2.2 ⟨h1, h2, h3⟩).1⟩
  constructor
  · intro heq
    have hadj : ∀ a b, Adj G.Arrow a b ↔ Adj K.Arrow a b := by
      intro a b
      rw [← not_iff_not, ← (sP a b).1, ← (sQ a b).1, heq a b]
    have hcomp : ∀ a b, Compelled G.Arrow a b ↔ Compelled K.Arrow a b := by
      intro a b
      rw [← (sP a b).2.1, ← (sQ a b).2.1]
      unfold GG.Arrow
      rw [heq a b, heq b a]
    refine ⟨hadj, fun a b c => ⟨fun hv => ?_, fun hv => ?_⟩⟩
    · refine ⟨hv.1, fun h => hv.2.1 ((hadj a c).2 h), ?_, ?_⟩
      · exact ((hcomp a b).1 ⟨hv.2.2.1, fun F _ he => ((he.2 a b c).1 hv).2.2.1⟩).1
      · exact ((hcomp c b).1 ⟨hv.2.2.2, fun F _ he => ((he.2 a b c).1 hv).2.2.2⟩).1
    · refine ⟨hv.1, fun h => hv.2.1 ((hadj a c).1 h), ?_, ?_⟩
      · exact ((hcomp a b).2 ⟨hv.2.2.1, fun F _ he => ((he.2 a b c).1 hv).2.2.1⟩).1
      · exact ((hcomp c b).2 ⟨hv.2.2.2, fun F _ he => ((he.2 a b c).1 hv).2.2.2⟩).1
  · intro heq a b
    have hc := compelled_congr hG.acyclic hK.acyclic heq
    obtain ⟨p1, p2, p3, p4⟩ := mark hG sP a b
    obtain ⟨q1, q2, q3, q4⟩ := mark hK sQ a b
    by_cases h1 : Adj G.Arrow a b
    · by_cases h2 : Compelled G.Arrow a b
      · rw [p2 h2, q2 ((hc a b).1 h2)]
      · by_cases h3 : Compelled G.Arrow b a
        · rw [p3 h3, q3 ((hc b a).1 h3)]
        · rw [p4 h1 h2 h3, q4 ((heq.1 a b).1 h1) (fun h => h2 ((hc a b).2 h)) (fun h => h3 ((hc b a).2 h))]
    · rw [p1 h1, q1 fun h => h1 ((heq.1 a b).2 h)]

/-! ## A concrete case -/

theorem isDag_of_lt {G : GG n} (hd : ∀ a b, G.g a b ≠ .null → G.Arrow a b ∨ G.Arrow b a) (hlt : ∀ a b, G.Arrow a b → a < b) :
    G.IsDag := by
  refine ⟨hd, fun x h => ?_⟩
  have : ∀ a b, TransGen G.Arrow a b → a < b := by
    intro a b h
    induction h with
    | single h => exact hlt _ _ h
    | tail _ h ih => exact ih.trans (hlt _ _ h)
  exact lt_irrefl _ (this x x h)

/-- `0 → 2 ← 1`, `2 → 3`, `4 → 5`: two edges compelled by a v-structure, one by propagation, one reversible. -/
def exDag : GG 6 := run [.addEdge 0 2 .tail .arrow, .addEdge 1 2 .tail .arrow, .addEdge 2 3 .tail .arrow,
  .addEdge 4 5 .tail .arrow]

/-- The same DAG with the last edge reversed. -/
def exDag' : GG 6 := run [.addEdge 0 2 .tail .arrow, .addEdge 1 2 .tail .arrow, .addEdge 2 3 .tail .arrow,
  .addEdge 5 4 .tail .arrow]

example : exDag.IsDag := isDag_of_lt (by decide) (by decide)

set_option maxRecDepth 20000 in
example : ∃ H, exDag.dag2cpdag 50 = .ok H ∧ H.Arrow 0 2 ∧ H.Arrow 1 2 ∧ H.Arrow 2 3 ∧ H.g 4 5 = .tail ∧ H.g 5 4 = .tail ∧
    UnshieldedCollider exDag.Arrow 0 2 1 := by
  refine ⟨_, rfl, ?_⟩
  unfold UnshieldedCollider Adj Collider
  decide

set_option maxRecDepth 20000 in
example : mecCheck exDag exDag' 50 = .ok true := by decide

end CL
