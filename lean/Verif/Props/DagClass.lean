import Verif.Model.DagClass
import Verif.Props.GraphTraversal
import Verif.Props.GraphAncestor
import Verif.Props.NamedGraph

/-!
# C105–C109: the class `Dag`
-/
namespace CL
namespace DagC
open GG Relation
variable {n : Nat}

/-! ## Specification: what a history of calls means -/

/-- The call adds the edge `a → b` (an `Edge` object with a tail at `a` and an arrowhead at `b`, however written, or `add_directed_edge`). -/
def Adds (o : Op n) (a b : Fin n) : Prop :=
  o = .addEdge a b .tail .arrow ∨ o = .addEdge b a .arrow .tail ∨ o = .addDirectedEdge a b

/-- The call removes the edge between `a` and `b`. -/
def Clears (o : Op n) (a b : Fin n) : Prop :=
  (∃ m1 m2, o = .removeEdge a b m1 m2 ∨ o = .removeEdge b a m1 m2) ∨ o = .removeConnectingEdge a b ∨ o = .removeConnectingEdge b a

/-- After the history there is an edge `a → b`: it was added, and later neither reversed nor removed. -/
def HasEdge (h : List (Op n)) (a b : Fin n) : Prop :=
  ∃ h₁ o h₂, h = h₁ ++ o :: h₂ ∧ Adds o a b ∧ ∀ o' ∈ h₂, ¬ Adds o' b a ∧ ¬ Clears o' a b

/-- No call names the same node twice. -/
def NoLoops (h : List (Op n)) : Prop := ∀ o ∈ h, o.ends.1 ≠ o.ends.2

/-! ## The matrix -/

@[simp] theorem adjust_g (G : GG n) (i j : Fin n) : (G.adjustDpath i j).g = G.g := rfl

@[simp] theorem recon_g (G : GG n) (es : List (Edge n)) : (reconstituteDpath G es).g = G.g := by
  unfold reconstituteDpath
  have h1 : ∀ (l : List (Fin n)) (H : GG n), (l.foldl (fun H i => H.adjustDpath i i) H).g = H.g := by
    intro l
    induction l with
    | nil => intro H; rfl
    | cons a l ih => intro H; rw [List.foldl_cons, ih]; rfl
  have h2 : ∀ (l : List (Edge n)) (H : GG n), (l.foldl (fun H e => H.adjustDpath e.node1 e.node2) H).g = H.g := by
    intro l
    induction l with
    | nil => intro H; rfl
    | cons a l ih => intro H; rw [List.foldl_cons, ih]; rfl
  rw [h2, h1]

@[simp] theorem empty_g : (empty n).g = fun _ _ => .null := by unfold empty; rw [recon_g]

/-- the matrix holds exactly the edges `E` -/
def Holds (G : GG n) (E : Fin n → Fin n → Prop) : Prop :=
  ∀ a b, (G.g b a = .arrow ↔ E a b) ∧ (G.g a b = .tail ↔ E a b) ∧ (G.g a b = .null ↔ ¬ E a b ∧ ¬ E b a)

theorem hasEdge_nil (a b : Fin n) : ¬ HasEdge ([] : List (Op n)) a b := by
  rintro ⟨h₁, o, h₂, h, -⟩
  simp at h

theorem hasEdge_snoc (h : List (Op n)) (o : Op n) (a b : Fin n) :
    HasEdge (h ++ [o]) a b ↔ Adds o a b ∨ (HasEdge h a b ∧ ¬ Adds o b a ∧ ¬ Clears o a b) := by
  constructor
  · rintro ⟨h₁, o', h₂, he, ha, hr⟩
    rcases List.eq_nil_or_concat h₂ with rfl | ⟨h₃, o'', rfl⟩
    · have := List.append_inj' (s₁ := h) (t₁ := [o]) (s₂ := h₁) (t₂ := [o']) he rfl
      simp at this
      exact Or.inl (this.2 ▸ ha)
    · rw [List.concat_eq_append] at he hr
      rw [← List.cons_append, ← List.append_assoc] at he
      have := List.append_inj' he rfl
      simp at this
      obtain ⟨rfl, rfl⟩ := this
      refine Or.inr ⟨⟨h₁, o', h₃, by simp, ha, fun o1 h1 => hr o1 (by simp [h1])⟩, hr o (by simp)⟩
  · rintro (ha | ⟨⟨h₁, o', h₂, rfl, ha, hr⟩, h1, h2⟩)
    · exact ⟨h, o, [], rfl, ha, by simp⟩
    · refine ⟨h₁, o', h₂ ++ [o], by simp, ha, fun o1 ho1 => ?_⟩
      rcases List.mem_append.1 ho1 with ho1 | ho1
      · exact hr o1 ho1
      · rw [List.mem_singleton] at ho1
        rw [ho1]; exact ⟨h1, h2⟩

theorem mkEdge_dir (a b : Fin n) (m1 m2 : Mark) :
    (mkEdge a b m1 m2).end1 = .tail ∧ (mkEdge a b m1 m2).end2 = .arrow ↔
      (m1 = .tail ∧ m2 = .arrow) ∨ (m1 = .arrow ∧ m2 = .tail) := by
  unfold mkEdge pointingLeft
  cases m1 <;> cases m2 <;> simp

theorem mkEdge_nodes (a b : Fin n) (m1 m2 : Mark) :
    ((mkEdge a b m1 m2).node1 = a ∧ (mkEdge a b m1 m2).node2 = b) ∨ ((mkEdge a b m1 m2).node1 = b ∧ (mkEdge a b m1 m2).node2 = a) := by
  unfold mkEdge; split <;> simp

theorem holds_put {G : GG n} {E : Fin n → Fin n → Prop} (h : Holds G E) (hE : ∀ a, ¬ E a a) (i j : Fin n) (hij : i ≠ j) :
    Holds ((G.setG j i .arrow).setG i j .tail) fun a b => (a = i ∧ b = j) ∨ (E a b ∧ ¬ (a = j ∧ b = i)) := by
  intro a b
  obtain ⟨h1, h2, h3⟩ := h a b
  have h4 := (h b a).2.2
  have h6 := (h b a).1
  have h7 := (h b a).2.1
  simp only [setG, upd_apply]
  grind

theorem holds_clear {G : GG n} {E : Fin n → Fin n → Prop} (h : Holds G E) (i j : Fin n) :
    Holds ((G.setG j i .null).setG i j .null) fun a b => E a b ∧ ¬ (a = i ∧ b = j) ∧ ¬ (a = j ∧ b = i) := by
  intro a b
  obtain ⟨h1, h2, h3⟩ := h a b
  simp only [setG, upd_apply]
  grind

theorem Holds.congr {G : GG n} {E E' : Fin n → Fin n → Prop} (h : Holds G E) (e : ∀ a b, E a b ↔ E' a b) : Holds G E' := by
  have : E = E' := by funext a b; exact propext (e a b)
  exact this ▸ h

theorem Holds.of_g {G H : GG n} {E : Fin n → Fin n → Prop} (h : Holds G E) (e : H.g = G.g) : Holds H E := by
  unfold Holds; rw [e]; exact h

theorem hasEdge_irrefl (h : List (Op n)) (hl : NoLoops h) (a : Fin n) : ¬ HasEdge h a a := by
  rintro ⟨h₁, o, h₂, rfl, ha, -⟩
  have := hl o (by simp)
  rcases ha with rfl | rfl | rfl <;> exact this rfl

theorem run_holds (h : List (Op n)) (hl : NoLoops h) : Holds (run h) (HasEdge h) := by
  induction h using List.reverseRecOn with
  | nil =>
    intro a b
    have h1 := hasEdge_nil a b
    have h2 := hasEdge_nil b a
    simp [run, h1, h2]
  | append_singleton h o ih =>
    have ih := ih fun o' ho' => hl o' (List.mem_append_left _ ho')
    have hirr := hasEdge_irrefl h fun o' ho' => hl o' (List.mem_append_left _ ho')
    have hne := hl o (by simp)
    have hrun : run (h ++ [o]) = apply (run h) o := by simp [run]
    rw [hrun]
    refine Holds.congr ?_ fun a b => (hasEdge_snoc h o a b).symm
    cases o with
    | addEdge x y m1 m2 =>
      simp only [Op.ends] at hne
      simp only [apply, addEdge, mkEdge_dir]
      split
      · rename_i hm
        rcases hm with ⟨rfl, rfl⟩ | ⟨rfl, rfl⟩
        · refine ((holds_put ih hirr x y hne).of_g rfl).congr fun a b => ?_
          simp [Adds, Clears]; grind
        · refine ((holds_put ih hirr y x (Ne.symm hne)).of_g rfl).congr fun a b => ?_
          simp [Adds, Clears]; grind
      · rename_i hm
        refine ih.congr fun a b => ?_
        simp [Adds, Clears]; grind
    | addDirectedEdge x y =>
      refine ((holds_put ih hirr x y hne).of_g rfl).congr fun a b => ?_
      simp [Adds, Clears]; grind
    | removeEdge x y m1 m2 =>
      simp only [apply, removeEdge]
      refine ((holds_clear ih (mkEdge x y m1 m2).node1 (mkEdge x y m1 m2).node2).of_g (recon_g _ _)).congr fun a b => ?_
      rcases mkEdge_nodes x y m1 m2 with ⟨e1, e2⟩ | ⟨e1, e2⟩ <;> rw [e1, e2] <;> simp [Adds, Clears] <;> grind
    | removeConnectingEdge x y =>
      refine (holds_clear ih x y).congr fun a b => ?_
      simp [Adds, Clears]; grind

/-! ## C105: edge queries -/

/-- the edge object `a → b` -/
def arrowEdge (a b : Fin n) : Edge n := ⟨a, b, .tail, .arrow, .tail, .arrow⟩

theorem holds_asymm {G : GG n} {E : Fin n → Fin n → Prop} (h : Holds G E) (a b : Fin n) (h1 : E a b) : ¬ E b a := by
  intro h2
  have e1 := (h a b).1.2 h1
  have e2 := (h b a).2.1.2 h2
  rw [e1] at e2; cases e2

theorem getEdge_holds {G : GG n} {E : Fin n → Fin n → Prop} (h : Holds G E) (a b : Fin n) :
    (E a b → getEdge G a b = some (arrowEdge a b)) ∧ (E b a → getEdge G a b = some (arrowEdge b a)) ∧
      (¬ E a b → ¬ E b a → getEdge G a b = none) := by
  refine ⟨fun e => ?_, fun e => ?_, fun e1 e2 => ?_⟩
  · have e1 := (h a b).1.2 e
    have e2 := (h a b).2.1.2 e
    simp [getEdge, e1, e2, mkEdge, pointingLeft, arrowEdge]
  · have e1 := (h b a).1.2 e
    have e2 := (h b a).2.1.2 e
    simp [getEdge, e1, e2, mkEdge, pointingLeft, arrowEdge]
  · have := (h a b).2.2.2 ⟨e1, e2⟩
    have := (h b a).2.2.2 ⟨e2, e1⟩
    simp [getEdge, *]

theorem foldl_count (l : List (Fin n)) (p : Fin n → Prop) [DecidablePred p] (k : Nat) :
    l.foldl (fun d j => if p j then d + 1 else d) k = k + (l.filter fun j => p j).length := by
  induction l generalizing k with
  | nil => rfl
  | cons a l ih =>
    rw [List.foldl_cons, ih, List.filter_cons]
    by_cases h : p a
    · simp [h]; omega
    · simp [h]

theorem filter_length_card (p : Fin n → Prop) [DecidablePred p] :
    ((List.finRange n).filter fun j => p j).length = (Finset.univ.filter p).card := by
  have h : ((List.finRange n).filter fun j => p j).Nodup := (List.nodup_finRange n).filter _
  rw [← List.toFinset_card_of_nodup h]
  congr 1
  ext a
  simp

theorem foldl_pairs (n : Nat) (p : Fin n → Fin n → Prop) [∀ i j, Decidable (p i j)] (l : List (Fin n)) (k : Nat) :
    l.foldl (fun acc i => (rangeFrom i).foldl (fun d j => if p i j then d + 1 else d) acc) k =
      k + (l.flatMap fun i => ((rangeFrom i).filter fun j => p i j).map fun j => (i, j)).length := by
  induction l generalizing k with
  | nil => rfl
  | cons a l ih =>
    rw [List.foldl_cons, ih, foldl_count, List.flatMap_cons, List.length_append, List.length_map]
    omega

theorem mem_rangeFrom (i j : Fin n) : j ∈ rangeFrom i ↔ i < j := by simp [rangeFrom]

open Classical in
/-- **C105.** After any history of `add_edge`, `add_directed_edge`, `remove_edge` and `remove_connecting_edge` calls (none with the same node
twice) every edge query of `Dag` answers for exactly the edges that were added and not later removed or reversed. -/
theorem C105_edge_queries_exact (h : List (Op n)) (hl : NoLoops h) :
    let G := run h
    (∀ a b, (isParentOf G a b = true ↔ HasEdge h a b) ∧ (isChildOf G b a = true ↔ HasEdge h a b) ∧
      (containsEdge G (arrowEdge a b) = true ↔ HasEdge h a b) ∧ (isAdjacentTo G a b = true ↔ HasEdge h a b ∨ HasEdge h b a)) ∧
    (∀ v, (∀ a, a ∈ parents G v ↔ HasEdge h a v) ∧ (∀ a, a ∈ children G v ↔ HasEdge h v a) ∧
      (∀ a, a ∈ adjacentNodes G v ↔ HasEdge h v a ∨ HasEdge h a v) ∧
      (parents G v).Pairwise (· < ·) ∧ (children G v).Pairwise (· < ·) ∧ (adjacentNodes G v).Pairwise (· < ·)) ∧
    (∀ v, indegree G v = (Finset.univ.filter fun a => HasEdge h a v).card ∧ outdegree G v = (Finset.univ.filter fun a => HasEdge h v a).card ∧
      degree G v = (Finset.univ.filter fun a => HasEdge h a v).card + (Finset.univ.filter fun a => HasEdge h v a).card ∧
      numConnectedEdges G v = (Finset.univ.filter fun a => HasEdge h v a ∨ HasEdge h a v).card ∧
      (isExogenous G v = true ↔ ∀ a, ¬ HasEdge h a v)) ∧
    (∀ a b, (HasEdge h a b → getEdge G a b = some (arrowEdge a b) ∧ getEdge G b a = some (arrowEdge a b)) ∧
      (¬ HasEdge h a b → ¬ HasEdge h b a → getEdge G a b = none)) ∧
    (graphEdges G).Nodup ∧ (∀ e, e ∈ graphEdges G ↔ ∃ a b, HasEdge h a b ∧ e = arrowEdge a b) ∧ numEdges G = (graphEdges G).length ∧
    (∀ v e, e ∈ nodeEdges G v ↔ ∃ a, (HasEdge h a v ∧ e = arrowEdge a v) ∨ (HasEdge h v a ∧ e = arrowEdge v a)) := by
  intro G
  have H : Holds G (HasEdge h) := run_holds h hl
  have hn : ∀ a b, G.g b a ≠ .null ↔ HasEdge h a b ∨ HasEdge h b a := by
    intro a b
    rw [ne_eq, (H b a).2.2]
    tauto
  have srt : ∀ p : Fin n → Bool, ((List.finRange n).filter p).Pairwise (· < ·) := fun p => (List.pairwise_lt_finRange n).filter _
  have hin : ∀ v, indegree G v = (Finset.univ.filter fun a => HasEdge h a v).card := by
    intro v
    unfold indegree
    rw [foldl_count _ (fun j => G.g v j = .arrow), filter_length_card]
    simp only [Nat.zero_add]
    congr 1; ext a; simp [(H a v).1]
  have hout : ∀ v, outdegree G v = (Finset.univ.filter fun a => HasEdge h v a).card := by
    intro v
    unfold outdegree
    rw [foldl_count _ (fun j => G.g j v = .arrow), filter_length_card]
    simp only [Nat.zero_add]
    congr 1; ext a; simp [(H v a).1]
  have hpe : ∀ i j : Fin n, ∀ e, e ∈ (if G.g j i ≠ .null then (getEdge G i j).toList else []) ↔
      (HasEdge h i j ∧ e = arrowEdge i j) ∨ (HasEdge h j i ∧ e = arrowEdge j i) := by
    intro i j e
    obtain ⟨g1, g2, g3⟩ := getEdge_holds H i j
    have asym := holds_asymm H i j
    by_cases h1 : HasEdge h i j
    · rw [if_pos ((hn i j).2 (Or.inl h1)), g1 h1]
      simp [h1, asym h1]
    · by_cases h2 : HasEdge h j i
      · rw [if_pos ((hn i j).2 (Or.inr h2)), g2 h2]
        simp [h1, h2]
      · rw [if_neg (by rw [hn]; tauto)]
        simp [h1, h2]
  refine ⟨fun a b => ⟨?_, ?_, ?_, ?_⟩, fun v => ⟨fun a => ?_, fun a => ?_, fun a => ?_, srt _, srt _, srt _⟩, fun v => ⟨hin v, hout v, ?_, ?_, ?_⟩,
    fun a b => ⟨fun e => ⟨(getEdge_holds H a b).1 e, (getEdge_holds H b a).2.1 e⟩, (getEdge_holds H a b).2.2⟩, ?_, ?_, ?_, ?_⟩
  · simp [isParentOf, (H a b).1]
  · simp [isChildOf, (H a b).1]
  · simp [containsEdge, arrowEdge, (H a b).1]
  · simp only [isAdjacentTo, bne_iff_ne]
    exact hn a b
  · simp [parents, (H a v).1]
  · simp [children, (H v a).1]
  · simp [adjacentNodes, (H v a).1, (H a v).1]; tauto
  · unfold degree; rw [hin, hout]
  · unfold numConnectedEdges
    rw [foldl_count _ (fun j => G.g j v = .arrow ∨ G.g v j = .arrow), filter_length_card]
    simp only [Nat.zero_add]
    congr 1; ext a; simp [(H v a).1, (H a v).1]
  · simp only [isExogenous, beq_iff_eq, hin]
    rw [Finset.card_eq_zero, Finset.filter_eq_empty_iff]
    simp
  · -- nodup
    unfold graphEdges
    rw [List.nodup_flatMap]
    have one : ∀ i j : Fin n, (if G.g j i ≠ .null then (getEdge G i j).toList else []).Nodup := by
      intro i j
      split
      · cases getEdge G i j <;> simp
      · simp
    refine ⟨fun i _ => ?_, ?_⟩
    · rw [List.nodup_flatMap]
      refine ⟨fun j _ => one i j, ?_⟩
      have : (rangeFrom i).Pairwise (· ≠ ·) := ((List.nodup_finRange n).filter _)
      refine (List.Pairwise.and_mem.1 this).imp ?_
      rintro j k ⟨hj, hk, hjk⟩ e he he'
      rw [mem_rangeFrom] at hj hk
      rw [hpe] at he he'
      unfold arrowEdge at he he'
      grind
    · refine (List.nodup_finRange n).imp ?_
      intro i i' hii e he he'
      rw [List.mem_flatMap] at he he'
      obtain ⟨j, hj, he⟩ := he
      obtain ⟨k, hk, he'⟩ := he'
      rw [mem_rangeFrom] at hj hk
      rw [hpe] at he he'
      unfold arrowEdge at he he'
      grind
  · intro e
    unfold graphEdges
    simp only [List.mem_flatMap, List.mem_finRange, true_and, hpe, mem_rangeFrom]
    constructor
    · rintro ⟨i, j, -, ⟨h1, h2⟩ | ⟨h1, h2⟩⟩
      · exact ⟨i, j, h1, h2⟩
      · exact ⟨j, i, h1, h2⟩
    · rintro ⟨a, b, h1, h2⟩
      have hne : a ≠ b := fun e => hasEdge_irrefl h hl a (by rw [← e] at h1; exact h1)
      rcases lt_or_gt_of_ne hne with hlt | hlt
      · exact ⟨a, b, hlt, Or.inl ⟨h1, h2⟩⟩
      · exact ⟨b, a, hlt, Or.inr ⟨h1, h2⟩⟩
  · unfold numEdges graphEdges
    rw [foldl_pairs n (fun i j => G.g j i ≠ .null)]
    rw [Nat.zero_add, List.length_flatMap, List.length_flatMap]
    congr 1
    refine List.map_congr_left fun i _ => ?_
    rw [List.length_map, List.length_flatMap]
    generalize rangeFrom i = l
    induction l with
    | nil => rfl
    | cons j l ih =>
      rw [List.filter_cons, List.map_cons, List.sum_cons, ← ih]
      by_cases hj : G.g j i ≠ .null
      · rw [if_pos (by simpa using hj), if_pos hj]
        have : (getEdge G i j).toList.length = 1 := by
          simp [getEdge, hj]
        rw [this, List.length_cons]; omega
      · rw [if_neg (by simpa using hj), if_neg hj]; simp
  · intro v e
    unfold nodeEdges
    simp only [List.mem_flatMap, List.mem_finRange, true_and, hpe]
    constructor
    · rintro ⟨j, h1 | h1⟩
      · exact ⟨j, Or.inr h1⟩
      · exact ⟨j, Or.inl h1⟩
    · rintro ⟨j, h1 | h1⟩
      · exact ⟨j, Or.inr h1⟩
      · exact ⟨j, Or.inl h1⟩

/-- a history with an overwritten, a removed and an ignored edge meets the hypothesis -/
example : NoLoops (n := 3) [.addEdge 0 1 .tail .arrow, .addDirectedEdge 1 0, .addEdge 2 1 .arrow .tail, .removeEdge 1 0 .tail .arrow, .addEdge 0 2 .tail .tail] ∧
    (graphEdges (run (n := 3) [.addEdge 0 1 .tail .arrow, .addDirectedEdge 1 0, .addEdge 2 1 .arrow .tail, .removeEdge 1 0 .tail .arrow, .addEdge 0 2 .tail .tail])) =
      [arrowEdge 1 2] := by
  refine ⟨?_, by decide⟩
  intro o ho
  simp at ho
  rcases ho with rfl | rfl | rfl | rfl | rfl <;> simp [Op.ends]

/-- **C105 (triples).** `is_def_collider(a, b, c)` says that both edges point to `b`; `is_def_noncollider(a, b, c)` that `b` points to `a` or `c`. -/
theorem C105_triples (h : List (Op n)) (hl : NoLoops h) (a b c : Fin n) :
    (isDefCollider (run h) a b c = true ↔ HasEdge h a b ∧ HasEdge h c b) ∧
    (isDefNoncollider (run h) a b c = true ↔ HasEdge h b a ∨ HasEdge h b c) := by
  have H : Holds (run h) (HasEdge h) := run_holds h hl
  have irr := hasEdge_irrefl h hl
  have prox : ∀ x, (HasEdge h x b → ∃ e, getEdge (run h) x b = some e ∧ e.proximal b = some .arrow) ∧
      (HasEdge h b x → ∃ e, getEdge (run h) x b = some e ∧ e.proximal b = some .tail) := by
    intro x
    have hx : HasEdge h x b → x ≠ b := fun h1 e => irr b (e ▸ h1)
    exact ⟨fun h1 => ⟨_, (getEdge_holds H x b).1 h1, by simp [Edge.proximal, arrowEdge, hx h1]⟩,
      fun h1 => ⟨_, (getEdge_holds H x b).2.1 h1, by simp [Edge.proximal, arrowEdge]⟩⟩
  have prox' : ∀ x, (HasEdge h x b → ∃ e, getEdge (run h) b x = some e ∧ e.proximal b = some .arrow) ∧
      (HasEdge h b x → ∃ e, getEdge (run h) b x = some e ∧ e.proximal b = some .tail) := by
    intro x
    have hx : HasEdge h x b → x ≠ b := fun h1 e => irr b (e ▸ h1)
    exact ⟨fun h1 => ⟨_, (getEdge_holds H b x).2.1 h1, by simp [Edge.proximal, arrowEdge, hx h1]⟩,
      fun h1 => ⟨_, (getEdge_holds H b x).1 h1, by simp [Edge.proximal, arrowEdge]⟩⟩
  constructor
  · unfold isDefCollider
    by_cases h1 : HasEdge h a b
    · obtain ⟨e1, g1, p1⟩ := (prox a).1 h1
      by_cases h2 : HasEdge h c b
      · obtain ⟨e2, g2, p2⟩ := (prox' c).1 h2
        simp [g1, g2, p1, p2, h1, h2]
      · by_cases h3 : HasEdge h b c
        · obtain ⟨e2, g2, p2⟩ := (prox' c).2 h3
          simp [g1, g2, p1, p2, h2]
        · simp [g1, (getEdge_holds H b c).2.2 h3 h2, h2]
    · by_cases h3 : HasEdge h b a
      · obtain ⟨e1, g1, p1⟩ := (prox a).2 h3
        rw [g1]
        cases getEdge (run h) b c <;> simp [p1, h1]
      · simp [(getEdge_holds H a b).2.2 h1 h3, h1]
  · unfold isDefNoncollider
    rw [List.any_eq_true]
    have hm := (C105_edge_queries_exact h hl).2.2.2.2.2.2.2 b
    simp only [hm]
    constructor
    · rintro ⟨e, ⟨x, ⟨h1, rfl⟩ | ⟨h1, rfl⟩⟩, he⟩
      · have hx : x ≠ b := fun e => irr b (by rw [e] at h1; exact h1)
        have : ∀ y, (arrowEdge x b).pointsToward y = true → y = b := by
          intro y hy
          simp only [Edge.pointsToward, Edge.proximal, arrowEdge] at hy
          grind
        simp only [Bool.or_eq_true, Bool.and_eq_true, Edge.distalNode, arrowEdge, beq_iff_eq] at he
        grind [arrowEdge]
      · simp only [Bool.or_eq_true, Bool.and_eq_true, Edge.distalNode, arrowEdge, beq_iff_eq] at he
        rcases he with ⟨he, -⟩ | ⟨he, -⟩
        · simp at he; exact Or.inl (he ▸ h1)
        · simp at he; exact Or.inr (he ▸ h1)
    · have key : ∀ y, HasEdge h b y → (arrowEdge b y).distalNode b = some y ∧ (arrowEdge b y).pointsToward y = true := by
        intro y hy
        have : b ≠ y := fun e => irr b (by rw [← e] at hy; exact hy)
        simp [Edge.distalNode, Edge.pointsToward, Edge.proximal, Edge.distal, arrowEdge, this]
      rintro (h1 | h1)
      · exact ⟨_, ⟨a, Or.inr ⟨h1, rfl⟩⟩, by simp [key a h1]⟩
      · exact ⟨_, ⟨c, Or.inr ⟨h1, rfl⟩⟩, by simp [key c h1]⟩

/-! ## C106: ancestors -/

/-- what one call of `collect_ancestors` does to the list -/
structure Collected (par : Fin n → List (Fin n)) (roots : Fin n → Prop) (anc anc' : List (Fin n)) : Prop where
  sub : ∀ x ∈ anc, x ∈ anc'
  nodup : anc'.Nodup
  new : ∀ x ∈ anc', x ∈ anc ∨ ∃ r, roots r ∧ ReflTransGen (fun x y => x ∈ par y) x r
  closed : ∀ x ∈ anc', x ∉ anc → ∀ p ∈ par x, p ∈ anc'

theorem nodup_length_le (l : List (Fin n)) (h : l.Nodup) : l.length ≤ n := by
  have := List.Nodup.length_le_card h
  simpa using this

theorem collect_fold {par : Fin n → List (Fin n)} {f : Nat}
    (ih : ∀ (anc : List (Fin n)) (v : Fin n), anc.Nodup → n < f + anc.length → ∃ anc', collect par f anc v = some anc' ∧ v ∈ anc' ∧
      Collected par (· = v) anc anc') (vs : List (Fin n)) (anc : List (Fin n)) (hn : anc.Nodup) (hf : n < f + anc.length) :
    ∃ anc', vs.foldlM (collect par f) anc = some anc' ∧ (∀ v ∈ vs, v ∈ anc') ∧ Collected par (· ∈ vs) anc anc' := by
  induction vs generalizing anc with
  | nil => exact ⟨anc, rfl, by simp, ⟨fun _ h => h, hn, fun x h => Or.inl h, fun x h h' => absurd h h'⟩⟩
  | cons v vs ihv =>
    obtain ⟨a1, e1, m1, c1⟩ := ih anc v hn hf
    have hlen : anc.length ≤ a1.length := (hn.subperm c1.sub).length_le
    obtain ⟨a2, e2, m2, c2⟩ := ihv a1 c1.nodup (by omega)
    refine ⟨a2, ?_, ?_, ⟨fun x h => c2.sub _ (c1.sub _ h), c2.nodup, ?_, ?_⟩⟩
    · rw [List.foldlM_cons, e1]; exact e2
    · intro w hw
      rcases List.mem_cons.1 hw with rfl | hw
      · exact c2.sub _ m1
      · exact m2 w hw
    · intro x hx
      rcases c2.new x hx with h | ⟨r, h1, h2⟩
      · rcases c1.new x h with h | ⟨r, rfl, h2⟩
        · exact Or.inl h
        · exact Or.inr ⟨r, List.mem_cons_self, h2⟩
      · exact Or.inr ⟨r, List.mem_cons_of_mem _ h1, h2⟩
    · intro x hx hx' p hp
      by_cases h1 : x ∈ a1
      · exact c2.sub _ (c1.closed x h1 hx' p hp)
      · exact c2.closed x hx h1 p hp

theorem collect_spec (par : Fin n → List (Fin n)) (f : Nat) (anc : List (Fin n)) (v : Fin n) (hn : anc.Nodup) (hf : n < f + anc.length) :
    ∃ anc', collect par f anc v = some anc' ∧ v ∈ anc' ∧ Collected par (· = v) anc anc' := by
  induction f generalizing anc v with
  | zero => have := nodup_length_le anc hn; omega
  | succ f ih =>
    rw [collect]
    split
    · rename_i hv
      exact ⟨anc, rfl, hv, ⟨fun _ h => h, hn, fun x h => Or.inl h, fun x h h' => absurd h h'⟩⟩
    · rename_i hv
      have hn' : (anc ++ [v]).Nodup := by
        rw [List.nodup_append]; refine ⟨hn, by simp, ?_⟩
        intro a ha b hb e
        rw [List.mem_singleton] at hb
        exact hv (hb ▸ e ▸ ha)
      obtain ⟨a', e, m, c⟩ := collect_fold ih (par v) (anc ++ [v]) hn' (by simp; omega)
      refine ⟨a', e, c.sub _ (by simp), ⟨fun x h => c.sub _ (by simp [h]), c.nodup, ?_, ?_⟩⟩
      · intro x hx
        rcases c.new x hx with h | ⟨r, h1, h2⟩
        · rcases List.mem_append.1 h with h | h
          · exact Or.inl h
          · rw [List.mem_singleton] at h
            exact Or.inr ⟨v, rfl, h ▸ ReflTransGen.refl⟩
        · exact Or.inr ⟨v, rfl, h2.tail h1⟩
      · intro x hx hx' p hp
        by_cases hxv : x = v
        · exact m p (hxv ▸ hp)
        · exact c.closed x hx (by simp [hx', hxv]) p hp

/-- **C106 (`get_ancestors`).** For every relation given by `get_parents` (so for `Dag` and `GeneralGraph`, and even with cycles) the
recursion ends, and `get_ancestors` returns, without repetition, exactly the nodes from which a member of the list can be reached
through parents. -/
theorem C106_get_ancestors_exact (par : Fin n → List (Fin n)) (vs : List (Fin n)) :
    ∃ l, getAncestors par (n + 1) vs = some l ∧ l.Nodup ∧ ∀ x, x ∈ l ↔ ∃ v ∈ vs, ReflTransGen (fun x y => x ∈ par y) x v := by
  obtain ⟨l, e, m, c⟩ := collect_fold (fun anc v h1 h2 => collect_spec par (n + 1) anc v h1 h2) vs [] List.nodup_nil (by simp)
  refine ⟨l, e, c.nodup, fun x => ⟨fun hx => ?_, ?_⟩⟩
  · rcases c.new x hx with h | h
    · simp at h
    · exact h
  · rintro ⟨v, hv, h⟩
    induction h using ReflTransGen.head_induction_on with
    | refl => exact m v hv
    | head h1 _ ih => exact c.closed _ ih (by simp) _ h1

/-- **C106 (`get_ancestors` of a `Dag`).** After any history, the ancestors of `vs` are the nodes with a directed path into `vs`. -/
theorem C106_get_ancestors_history (h : List (Op n)) (hl : NoLoops h) (vs : List (Fin n)) :
    ∃ l, getAncestors (parents (run h)) (n + 1) vs = some l ∧ l.Nodup ∧ ∀ x, x ∈ l ↔ ∃ v ∈ vs, ReflTransGen (HasEdge h) x v := by
  have : (fun x y => x ∈ parents (run h) y) = HasEdge h := by
    funext x y
    exact propext (((C105_edge_queries_exact h hl).2.1 y).1 x)
  rw [← this]
  exact C106_get_ancestors_exact _ vs

theorem recon_nil_dp (G : GG n) (a b : Fin n) : (reconstituteDpath G []).dp a b = true ↔ G.dp a b = true ∨ a = b := by
  unfold reconstituteDpath
  rw [List.reverse_nil, List.foldl_nil, fold_adjust_self]
  simp

/-- A history that only adds edges, each into a node that has no outgoing edge yet. -/
def addAll (es : List (Fin n × Fin n)) : List (Op n) := es.map fun e => .addDirectedEdge e.1 e.2

theorem hasEdge_addAll (es : List (Fin n × Fin n)) (a b : Fin n) (h : HasEdge (addAll es) a b) : (a, b) ∈ es := by
  obtain ⟨h₁, o, h₂, e, ha, -⟩ := h
  have : o ∈ addAll es := by rw [e]; simp
  obtain ⟨x, hx, rfl⟩ := List.mem_map.1 this
  rcases ha with ha | ha | ha <;> cases ha
  exact hx

theorem noLoops_addAll (es : List (Fin n × Fin n)) (h : ∀ e ∈ es, e.1 ≠ e.2) : NoLoops (addAll es) := by
  intro o ho
  obtain ⟨x, hx, rfl⟩ := List.mem_map.1 ho
  exact h x hx

/-- **C106, `is_ancestor_of`, what holds.** If edges are only added, each into a node without outgoing edges, then `is_ancestor_of` and
`exists_trek` are exact. -/
theorem C106_is_ancestor_of_partial (es : List (Fin n × Fin n)) (hne : ∀ e ∈ es, e.1 ≠ e.2)
    (hord : es.Pairwise fun earlier later => earlier.1 ≠ later.2) (x y : Fin n) :
    (isAncestorOf (run (addAll es)) x y = true ↔ ReflTransGen (HasEdge (addAll es)) x y) ∧
    (existsTrek (run (addAll es)) x y = true ↔
      ∃ v, ReflTransGen (HasEdge (addAll es)) v x ∧ ReflTransGen (HasEdge (addAll es)) v y) := by
  have key : ∀ x y, (run (addAll es)).dp y x = true ↔ ReflTransGen (HasEdge (addAll es)) x y := by
    clear x y
    induction es using List.reverseRecOn with
    | nil =>
      intro x y
      have h1 : (run (addAll ([] : List (Fin n × Fin n)))).dp y x = true ↔ y = x := by
        show (reconstituteDpath (⟨fun _ _ => .null, fun _ _ => false⟩ : GG n) []).dp y x = true ↔ _
        rw [recon_nil_dp]; simp
      rw [h1]
      constructor
      · rintro rfl; exact ReflTransGen.refl
      · intro h
        rcases ReflTransGen.cases_tail h with h | ⟨z, -, h⟩
        · exact h
        · exact absurd h (hasEdge_nil _ _)
    | append_singleton es e ih =>
      have ih := ih (fun e' he' => hne e' (List.mem_append_left _ he')) (List.pairwise_append.1 hord).1
      have hnew : ∀ e' ∈ es, e'.1 ≠ e.2 := fun e' he' => (List.pairwise_append.1 hord).2.2 e' he' e (by simp)
      obtain ⟨i, j⟩ := e
      have hij : i ≠ j := hne (i, j) (by simp)
      have hall : addAll (es ++ [(i, j)]) = addAll es ++ [.addDirectedEdge i j] := by simp [addAll]
      have hrun : run (addAll (es ++ [(i, j)])) = addDirectedEdge (run (addAll es)) i j := by
        rw [hall]; simp [run, apply]
      have hout : ∀ b, ¬ HasEdge (addAll es) j b := fun b hb => hnew _ (hasEdge_addAll es j b hb) rfl
      have hE : ∀ a b, HasEdge (addAll (es ++ [(i, j)])) a b ↔ (a = i ∧ b = j) ∨ HasEdge (addAll es) a b := by
        intro a b
        rw [hall, hasEdge_snoc]
        have := hout b
        simp [Adds, Clears]
        grind
      have hjo : ∀ z, ReflTransGen (HasEdge (addAll es)) j z → z = j := by
        intro z hz
        rcases ReflTransGen.cases_head hz with h | ⟨c, h, -⟩
        · exact h.symm
        · exact absurd h (hout c)
      have hr : ∀ a, (run (addAll es)).dp a a = true := fun a => (ih a a).2 ReflTransGen.refl
      have hdp : ∀ x y, (run (addAll (es ++ [(i, j)]))).dp y x = true ↔
          ReflTransGen (HasEdge (addAll es)) x y ∨ (y = j ∧ ReflTransGen (HasEdge (addAll es)) x i) := by
        intro x y
        rw [hrun]
        unfold addDirectedEdge
        rw [adjustDpath_dp (((run (addAll es)).setG j i Mark.arrow).setG i j Mark.tail) (fun a => hr a)]
        show (run (addAll es)).dp y x = true ∨ (y = j ∧ (run (addAll es)).dp i x = true) ∨ ((run (addAll es)).dp y j = true ∧ x = i) ↔ _
        rw [ih, ih, ih]
        constructor
        · rintro (h | ⟨h1, h2⟩ | ⟨h1, rfl⟩)
          · exact Or.inl h
          · exact Or.inr ⟨h1, h2⟩
          · exact Or.inr ⟨hjo y h1, ReflTransGen.refl⟩
        · rintro (h | h)
          · exact Or.inl h
          · exact Or.inr (Or.inl h)
      intro x y
      rw [hdp]
      constructor
      · rintro (h | ⟨rfl, h⟩)
        · exact ReflTransGen.mono (fun a b hab => (hE a b).2 (Or.inr hab)) _ _ h
        · exact (ReflTransGen.mono (fun a b hab => (hE a b).2 (Or.inr hab)) _ _ h).tail ((hE _ _).2 (Or.inl ⟨rfl, rfl⟩))
      · intro h
        induction h with
        | refl => exact Or.inl ReflTransGen.refl
        | tail h1 h2 ih2 =>
          rcases (hE _ _).1 h2 with ⟨rfl, rfl⟩ | h2
          · rcases ih2 with h | ⟨h, -⟩
            · exact Or.inr ⟨rfl, h⟩
            · exact absurd h hij
          · rcases ih2 with h | ⟨e, -⟩
            · exact Or.inl (h.tail h2)
            · rw [e] at h2; exact absurd h2 (hout _)
  refine ⟨key x y, ?_⟩
  unfold existsTrek isAncestorOf
  simp only [List.any_eq_true, List.mem_finRange, true_and, Bool.and_eq_true, key]

example : ∃ es : List (Fin 3 × Fin 3), es = [(0, 1), (1, 2), (0, 2)] ∧ (∀ e ∈ es, e.1 ≠ e.2) ∧ (es.Pairwise fun earlier later => earlier.1 ≠ later.2) ∧
    isAncestorOf (run (addAll es)) 0 2 = true := ⟨_, rfl, by decide, by decide, by decide⟩

/-- **C106 violated.** (1) Edges only added: 0→1, 2→3, 1→2, but 0 is not reported as an ancestor of 3. (2), (3) After removing the only edge
0→1 with `remove_edge` or `remove_connecting_edge`, 0 is still reported as an ancestor of 1. (4) After 0→1 was overwritten by 1→0, both
nodes are ancestors of each other. -/
theorem C106_is_ancestor_of_violated :
    (ReflTransGen (HasEdge (n := 4) (addAll [(0, 1), (2, 3), (1, 2)])) 0 3 ∧ isAncestorOf (run (n := 4) (addAll [(0, 1), (2, 3), (1, 2)])) 0 3 = false) ∧
    (∀ o : Op 2, o = .removeEdge 0 1 .tail .arrow ∨ o = .removeConnectingEdge 0 1 →
      (∀ a b, ¬ HasEdge [.addDirectedEdge 0 1, o] a b) ∧ isAncestorOf (run [.addDirectedEdge 0 1, o]) 0 1 = true) ∧
    (isAncestorOf (run (n := 2) [.addDirectedEdge 0 1, .addDirectedEdge 1 0]) 0 1 = true ∧
      isAncestorOf (run (n := 2) [.addDirectedEdge 0 1, .addDirectedEdge 1 0]) 1 0 = true ∧
      ¬ HasEdge (n := 2) [.addDirectedEdge 0 1, .addDirectedEdge 1 0] 0 1) := by
  have key : ∀ {n : Nat} (h : List (Op n)) (hl : NoLoops h) a b, HasEdge h a b ↔ (run h).g b a = .arrow :=
    fun h hl a b => ((run_holds h hl) a b).1.symm
  have hl1 : NoLoops (n := 4) (addAll [(0, 1), (2, 3), (1, 2)]) := noLoops_addAll _ (by decide)
  refine ⟨⟨?_, by decide⟩, ?_, by decide, by decide, ?_⟩
  · exact ((ReflTransGen.single ((key _ hl1 0 1).2 (by decide))).tail ((key _ hl1 1 2).2 (by decide))).tail ((key _ hl1 2 3).2 (by decide))
  · rintro o (rfl | rfl)
    · refine ⟨fun a b => ?_, by decide⟩
      rw [key _ (by intro o ho; simp at ho; rcases ho with rfl | rfl <;> simp [Op.ends])]
      revert a b; decide
    · refine ⟨fun a b => ?_, by decide⟩
      rw [key _ (by intro o ho; simp at ho; rcases ho with rfl | rfl <;> simp [Op.ends])]
      revert a b; decide
  · rw [key _ (by intro o ho; simp at ho; rcases ho with rfl | rfl <;> simp [Op.ends])]
    decide

/-! ## C107: acyclicity and causal ordering -/

/-- the graph object seen as a `GeneralGraph` answers the queries used by `get_causal_order` in the same way -/
theorem parents_eq {G : GG n} {E : Fin n → Fin n → Prop} (h : Holds G E) (v : Fin n) : parents G v = G.parents v := by
  unfold parents GG.parents
  refine List.filter_congr fun a _ => ?_
  obtain ⟨h1, h2, h3⟩ := h a v
  have h4 := (h v a).2
  by_cases he : E a v
  · simp [h1.2 he, h2.2 he]
  · have e1 : G.g v a ≠ .arrow := fun e => he (h1.1 e)
    have e2 : G.g a v ≠ .tail := fun e => he (h2.1 e)
    have e3 : G.g v a ≠ .aa := by
      intro e
      by_cases hva : E v a
      · have := h4.1.2 hva; rw [this] at e; cases e
      · have := h4.2.2 ⟨hva, he⟩; rw [this] at e; cases e
    rw [beq_false_of_ne e1, beq_false_of_ne e2, beq_false_of_ne e3]
    simp

theorem holds_simple {G : GG n} {E : Fin n → Fin n → Prop} (h : Holds G E) : G.Simple := by
  intro a b
  obtain ⟨h1, h2, h3⟩ := h a b
  have h4 := (h b a).1
  by_cases e1 : E a b
  · rw [h2.2 e1]; simp
  · by_cases e2 : E b a
    · rw [h4.2 e2]; simp
    · rw [h3.2 ⟨e1, e2⟩]; simp

theorem holds_arrow {G : GG n} {E : Fin n → Fin n → Prop} (h : Holds G E) (a b : Fin n) : G.Arrow a b ↔ E a b :=
  ⟨fun ha => (h a b).1.1 ha.2, fun ha => ⟨(h a b).2.1.2 ha, (h a b).1.2 ha⟩⟩

theorem orderSweep_eq {G : GG n} {E : Fin n → Fin n → Prop} (h : Holds G E) (vs found sub : List (Fin n)) :
    orderSweep G vs found sub = GG.orderSweep G vs found sub := by
  induction vs generalizing found sub with
  | nil => rfl
  | cons v vs ih =>
    unfold orderSweep GG.orderSweep
    rw [parents_eq h, ih, ih]

theorem orderLoop_eq {G : GG n} {E : Fin n → Fin n → Prop} (h : Holds G E) (f : Nat) (found nf : List (Fin n)) :
    orderLoop G f found nf = GG.orderLoop G f found nf := by
  induction f generalizing found nf with
  | zero => cases nf <;> rfl
  | succ f ih =>
    cases nf with
    | nil => rfl
    | cons v vs =>
      unfold orderLoop GG.orderLoop
      rw [orderSweep_eq h, ih]

theorem causalOrdering_eq {G : GG n} {E : Fin n → Fin n → Prop} (h : Holds G E) (f : Nat) : causalOrdering G f = G.causalOrder f := by
  unfold causalOrdering GG.causalOrder existsDirectedCycle
  rw [(C05_cycles_never_reported_violated (holds_simple h)).2, orderLoop_eq h]
  rfl

/-- **C107, what holds.** If the edges present after a history form no directed cycle, `exists_directed_cycle` is right, and
`get_causal_ordering` ends with a list of all nodes, once each, every edge pointing forward. -/
theorem C107_causal_ordering_partial (h : List (Op n)) (hl : NoLoops h) (hac : ∀ x, ¬ TransGen (HasEdge h) x x) :
    existsDirectedCycle (run h) = false ∧
    ∃ l, (∀ fuel, n < fuel → causalOrdering (run h) fuel = .ok l) ∧ l.Perm (List.finRange n) ∧ ∀ x y, HasEdge h x y → l.idxOf x < l.idxOf y := by
  have H := run_holds h hl
  have harr : (run h).Arrow = HasEdge h := by funext a b; exact propext (holds_arrow H a b)
  refine ⟨rfl, ?_⟩
  obtain ⟨l, h1, h2, h3⟩ := C09_causal_order_topological (holds_simple H) (by rintro ⟨x, hx⟩; rw [harr] at hx; exact hac x hx)
  exact ⟨l, fun f hf => by rw [causalOrdering_eq H, h1 f hf], h2, fun x y hxy => h3 x y (by rw [harr]; exact hxy)⟩

/-- **C107 violated (every cyclic history).** Nothing refuses an edge that closes a cycle, `exists_directed_cycle` denies the cycle, and
`get_causal_ordering` runs forever. -/
theorem C107_cycle_violated (h : List (Op n)) (hl : NoLoops h) (x : Fin n) (hc : TransGen (HasEdge h) x x) :
    existsDirectedCycle (run h) = false ∧ ∀ fuel, causalOrdering (run h) fuel = .outOfFuel := by
  have H := run_holds h hl
  have harr : (run h).Arrow = HasEdge h := by funext a b; exact propext (holds_arrow H a b)
  exact ⟨rfl, fun f => by rw [causalOrdering_eq H]; exact C09_cyclic_diverges (holds_simple H) ⟨x, by rw [harr]; exact hc⟩ f⟩

/-- three `add_directed_edge` calls make a cycle -/
theorem C107_three_cycle_violated : NoLoops (n := 3) (addAll [(0, 1), (1, 2), (2, 0)]) ∧ TransGen (HasEdge (n := 3) (addAll [(0, 1), (1, 2), (2, 0)])) 0 0 := by
  have hl1 : NoLoops (n := 3) (addAll [(0, 1), (1, 2), (2, 0)]) := noLoops_addAll _ (by decide)
  have key : ∀ a b, HasEdge (addAll [(0, 1), (1, 2), (2, 0)]) a b ↔ (run (n := 3) (addAll [(0, 1), (1, 2), (2, 0)])).g b a = .arrow :=
    fun a b => ((run_holds _ hl1) a b).1.symm
  exact ⟨hl1, ((TransGen.single ((key 0 1).2 (by decide))).tail ((key 1 2).2 (by decide))).tail ((key 2 0).2 (by decide))⟩

/-! ## C108: removing nodes, subgraphs -/
section named
variable {α : Type} [LinearOrder α]
open NG

/-- the object `remove_node` leaves before it updates `dpath` -/
def removed (G : NG α) (v : α) (r : Nat) : NG α :=
  ⟨G.nodes.erase v, fun a => if a = v then none else G.map a, G.num - 1, fun a b => G.mat (skip r a) (skip r b)⟩

theorem removeNode_eq (G : NG α) (v : α) (r : Nat) (hr : G.map v = some r) :
    removeNode G v = if ∀ j < G.num - 1, ∀ i < j, (removed G v r).mat j i ≠ .null → edgeOk (removed G v r) i j = some () then some (removed G v r) else none := by
  unfold removeNode
  rw [hr]
  rfl

theorem edgeOk_iff {G : NG α} (h : G.Aligned) (v : α) (r : Nat) (hr : G.map v = some r) (i j : Nat) (hi : i < G.num - 1) (hj : j < G.num - 1) :
    edgeOk (removed G v r) i j = some () ↔ skip r i < G.num - 1 ∧ skip r j < G.num - 1 ∧
      ¬ ((removed G v r).mat (skip r i) (skip r j) = .null ∧ (removed G v r).mat (skip r j) (skip r i) = .null) := by
  have hv := (h.map v r).1 hr
  have hnode : ∀ k, k < G.num - 1 → ∃ a, (removed G v r).nodes[k]? = some a ∧ (removed G v r).map a = some (skip r k) := by
    intro k hk
    have e := erase_getElem? h.nodup hv k
    have hlt : skip r k < G.nodes.length := by
      have := h.num; unfold skip; split <;> omega
    refine ⟨G.nodes[skip r k], by rw [removed, e, List.getElem?_eq_getElem hlt], ?_⟩
    have hne : G.nodes[skip r k] ≠ v := by
      intro heq
      have h1 : G.nodes[skip r k]? = some v := by rw [List.getElem?_eq_getElem hlt, heq]
      have := (h.map v _).2 h1
      rw [hr] at this
      exact skip_ne r k (Option.some.inj this).symm
    simp only [removed, if_neg hne]
    exact (h.map _ _).2 (List.getElem?_eq_getElem hlt)
  obtain ⟨a, ha1, ha2⟩ := hnode i hi
  obtain ⟨b, hb1, hb2⟩ := hnode j hj
  unfold edgeOk readPair
  rw [ha1, hb1]
  simp only [Option.bind_some, ha2, hb2]
  show (if skip r i < G.num - 1 ∧ skip r j < G.num - 1 then _ else _ : Option (Mark × Mark)).bind _ = _ ↔ _
  by_cases hlt : skip r i < G.num - 1 ∧ skip r j < G.num - 1
  · rw [if_pos hlt, Option.bind_some]
    simp [hlt]
  · rw [if_neg hlt]
    simp
    tauto

/-- adjacency is recorded on both sides of the matrix, as in every object built through the class -/
def SymMat (G : NG α) : Prop := ∀ i j, G.mat i j = .null ↔ G.mat j i = .null

theorem removeNode_none_iff {G : NG α} (h : G.Aligned) (hs : SymMat G) (v : α) (r : Nat) (hr : G.map v = some r) :
    removeNode G v = none ↔ ∃ i j, i < j ∧ j < G.num - 1 ∧ r ≤ j ∧ (removed G v r).mat j i ≠ .null := by
  rw [removeNode_eq G v r hr]
  have hs' : ∀ i j, (removed G v r).mat i j = .null ↔ (removed G v r).mat j i = .null := fun i j => hs _ _
  constructor
  · intro hn
    by_contra hc
    push Not at hc
    rw [if_pos] at hn
    · cases hn
    · intro j hj i hij hm
      have hjr : j < r := by
        by_contra hge
        exact hm (hc i j hij hj (by omega))
      rw [edgeOk_iff h v r hr i j (by omega) hj]
      have e1 : skip r j = j := by unfold skip; rw [if_pos hjr]
      have e2 : skip r i = i := by unfold skip; rw [if_pos (by omega)]
      rw [e1, e2]
      exact ⟨by omega, hj, fun hh => hm hh.2⟩
  · rintro ⟨i, j, hij, hj, hrj, hm⟩
    rw [if_neg]
    intro hall
    have step : ∀ k, ∀ i j, G.num - 1 - j ≤ k → i < j → j < G.num - 1 → r ≤ j → (removed G v r).mat j i ≠ .null → False := by
      intro k
      induction k with
      | zero => intro i j h1 h2 h3; omega
      | succ k ih =>
        intro i j h1 h2 h3 h4 h5
        have h6 := (edgeOk_iff h v r hr i j (by omega) h3).1 (hall j h3 i h2 h5)
        have e1 : skip r j = j + 1 := by unfold skip; rw [if_neg (by omega)]
        have e2 : skip r i ≤ i + 1 := by unfold skip; split <;> omega
        rw [e1] at h6
        refine ih (skip r i) (j + 1) (by omega) (by omega) h6.2.1 (by omega) fun hnull => h6.2.2 ⟨(hs' _ _).2 hnull, hnull⟩
    exact step _ i j le_rfl hij hj hrj hm

theorem map_lt {G : NG α} (h : G.Aligned) {a : α} {i : Nat} (ha : G.map a = some i) : i < G.num := by
  have := (h.map a i).1 ha
  rw [h.num]
  by_contra hc
  rw [List.getElem?_eq_none (by omega)] at this
  cases this

theorem map_inj {G : NG α} (h : G.Aligned) {a b : α} {i : Nat} (ha : G.map a = some i) (hb : G.map b = some i) : a = b := by
  have h1 := (h.map a i).1 ha
  have h2 := (h.map b i).1 hb
  rw [h1] at h2; exact Option.some.inj h2

/-- un-skip -/
theorem skip_surj (r k : Nat) (h : k ≠ r) : ∃ i, skip r i = k ∧ (k < r → i = k) ∧ (r < k → i + 1 = k) := by
  by_cases hk : k < r
  · exact ⟨k, by unfold skip; rw [if_pos hk], fun _ => rfl, fun _ => by omega⟩
  · refine ⟨k - 1, ?_, fun _ => by omega, fun _ => by omega⟩
    unfold skip; rw [if_neg (by omega)]; omega

/-- **C108 violated (`remove_node`).** In every consistent object: if an edge remains at a node `b` that comes after the removed node `v` in the
node list, `remove_node(v)` raises (and leaves the object half changed). -/
theorem C108_remove_node_violated (G : NG α) (h : G.Aligned) (hs : SymMat G) (v a b : α) (r i j : Nat) (hv : G.map v = some r) (ha : G.map a = some i)
    (hb : G.map b = some j) (hav : a ≠ v) (hab : a ≠ b) (hrj : r < j) (hedge : G.markAt a b ≠ .null) : removeNode G v = none := by
  rw [removeNode_none_iff h hs v r hv]
  have hm : G.mat i j ≠ .null := by unfold markAt at hedge; rw [ha, hb] at hedge; exact hedge
  have hi : i ≠ r := fun e => hav (map_inj h (e ▸ ha) hv)
  have hij : i ≠ j := fun e => hab (map_inj h (e ▸ ha) hb)
  obtain ⟨i', e1, e2, e3⟩ := skip_surj r i hi
  obtain ⟨j', f1, f2, f3⟩ := skip_surj r j (by omega)
  have hlj := map_lt h hb
  have hli := map_lt h ha
  have f3 := f3 hrj
  have hm1 : (removed G v r).mat i' j' ≠ .null := by simp only [removed, e1, f1]; exact hm
  have hm2 : (removed G v r).mat j' i' ≠ .null := by simp only [removed, e1, f1]; exact fun e => hm ((hs _ _).2 e)
  have hne : i' ≠ j' := by rintro rfl; exact hij (e1.symm.trans f1)
  by_cases hir : i < r
  · exact ⟨i', j', by have := e2 hir; omega, by omega, by omega, hm2⟩
  · have e3 := e3 (by omega)
    rcases lt_or_gt_of_ne hne with hl | hl
    · exact ⟨i', j', hl, by omega, by omega, hm2⟩
    · exact ⟨j', i', hl, by omega, by omega, hm1⟩

/-- **C108, what holds (`remove_node`).** If no remaining edge touches a node after `v`, the call succeeds, and the marks between nodes before
`v` are as before; if `v` is the last node, the new object is consistent and keeps all other nodes and all edges between them. -/
theorem C108_remove_node_partial (G : NG α) (h : G.Aligned) (hs : SymMat G) (v : α) (r : Nat) (hv : G.map v = some r)
    (hno : ∀ a b i j, G.map a = some i → G.map b = some j → i < j → r < j → a ≠ v → G.markAt a b = .null) :
    ∃ G', removeNode G v = some G' ∧ G'.nodes = G.nodes.filter (· ≠ v) ∧
      (∀ a b i j, G.map a = some i → G.map b = some j → i < r → j < r → G'.markAt a b = G.markAt a b) ∧
      (r + 1 = G.num → G'.Aligned ∧ ∀ a b, a ≠ v → b ≠ v → G'.markAt a b = G.markAt a b) := by
  have hvr := (h.map v r).1 hv
  have hsome : removeNode G v = some (removed G v r) := by
    by_contra hc
    have : removeNode G v = none := by
      rw [removeNode_eq G v r hv] at hc ⊢
      split at hc
      · exact absurd rfl hc
      · rw [if_neg ‹_›]
    rw [removeNode_none_iff h hs v r hv] at this
    obtain ⟨i, j, hij, hj, hrj, hm⟩ := this
    have e1 : skip r j = j + 1 := by unfold skip; rw [if_neg (by omega)]
    have e2 : skip r i ≤ i + 1 := by unfold skip; split <;> omega
    have hjl : skip r j < G.nodes.length := by have := h.num; omega
    have hil : skip r i < G.nodes.length := by omega
    have m1 := (h.map _ _).2 (List.getElem?_eq_getElem hil)
    have m2 := (h.map _ _).2 (List.getElem?_eq_getElem hjl)
    have := hno _ _ _ _ m1 m2 (by omega) (by omega) (by
      intro he
      rw [he, hv] at m1
      exact skip_ne r i (Option.some.inj m1).symm)
    unfold markAt at this
    rw [m1, m2] at this
    exact hm ((hs _ _).2 this)
  have hmark : ∀ a b i j, G.map a = some i → G.map b = some j → i < r → j < r → (removed G v r).markAt a b = G.markAt a b := by
    intro a b i j ha hb hi hj
    have hav : a ≠ v := by rintro rfl; rw [ha] at hv; cases hv; omega
    have hbv : b ≠ v := by rintro rfl; rw [hb] at hv; cases hv; omega
    unfold markAt
    simp only [removed, if_neg hav, if_neg hbv, ha, hb]
    unfold skip
    rw [if_pos hi, if_pos hj]
  refine ⟨_, hsome, ?_, hmark, fun hlast => ?_⟩
  · have := h.nodup.erase_eq_filter v
    simp only [removed]
    rw [this]
    refine List.filter_congr fun a _ => ?_
    simp [bne, BEq.beq]
  · have hlt : ∀ a i, G.map a = some i → a ≠ v → i < r := by
      intro a i ha hav
      have := map_lt h ha
      have : i ≠ r := fun e => hav (map_inj h (e ▸ ha) hv)
      omega
    refine ⟨⟨h.nodup.erase v, ?_, fun a i => ?_⟩, fun a b hav hbv => ?_⟩
    · simp only [removed]
      rw [List.length_erase_of_mem (List.mem_of_getElem? hvr), h.num]
    · simp only [removed]
      rw [erase_getElem? h.nodup hvr]
      by_cases hi : i < r
      · have e : skip r i = i := by unfold skip; rw [if_pos hi]
        rw [e]
        by_cases hav : a = v
        · rw [if_pos hav]
          constructor
          · intro hh; cases hh
          · intro hh
            have := (h.map a i).2 hh
            rw [hav, hv] at this
            cases this
            omega
        · rw [if_neg hav]; exact h.map a i
      · have e : skip r i = i + 1 := by unfold skip; rw [if_neg hi]
        rw [e, List.getElem?_eq_none (by have := h.num; omega)]
        constructor
        · intro hh
          split at hh
          · cases hh
          · have := hlt a i hh ‹_›; omega
        · intro hh; cases hh
    · cases ha : G.map a with
      | none => unfold markAt; simp only [removed, if_neg hav, ha]
      | some i =>
        cases hb : G.map b with
        | none => unfold markAt; simp only [removed, if_neg hav, if_neg hbv, ha, hb]
        | some j => exact hmark a b i j ha hb (hlt a i ha hav) (hlt b j hb hbv)

/-- three nodes, 0→1: removing 2 keeps the edge, removing 0 works (no edge is left), and with 1→2 instead removing 0 raises -/
example : ((removeNode ((NG.mk' [0, 1, 2]).putEdge 0 1 .tail .arrow) 2).map fun G => (G.nodes, G.markAt 0 1, G.markAt 1 0)) = some ([0, 1], .tail, .arrow) ∧
    ((removeNode ((NG.mk' [0, 1, 2]).putEdge 0 1 .tail .arrow) 0).map fun G => G.nodes) = some [1, 2] ∧
    (removeNode ((NG.mk' [0, 1, 2]).putEdge 1 2 .tail .arrow) 0).isNone = true := by decide

/-! ### subgraphs -/

/-- the loop of `keepRows` -/
def keepStep (out : Nat → Bool) (rows : List Nat) (i : Nat) : Option (List Nat) :=
  if out i then (if i < rows.length then some (rows.eraseIdx i) else none) else some rows

theorem keepRows_eq (out : Nat → Bool) (m : Nat) : keepRows out m = (List.range m).foldlM (keepStep out) (List.range m) := rfl

theorem foldlM_notOut (out : Nat → Bool) (L rows : List Nat) (h : ∀ i ∈ L, out i = false) : L.foldlM (keepStep out) rows = some rows := by
  induction L with
  | nil => rfl
  | cons a L ih =>
    rw [List.foldlM_cons]
    have : keepStep out rows a = some rows := by unfold keepStep; rw [h a List.mem_cons_self]; rfl
    rw [this]
    exact ih fun i hi => h i (List.mem_cons_of_mem _ hi)

theorem range_split (m i : Nat) (h : i < m) : List.range m = List.range i ++ i :: List.range' (i + 1) (m - i - 1) := by
  rw [List.range_eq_range', List.range_eq_range', ← List.range'_succ, show m - i - 1 + 1 = m - i by omega]
  have := List.range'_append (s := 0) (m := i) (n := m - i) (step := 1)
  simp only [Nat.one_mul, Nat.zero_add] at this
  rw [this, Nat.add_sub_cancel' (by omega)]

theorem keepRows_one (out : Nat → Bool) (m r : Nat) (hr : r < m) (h : ∀ i, i < m → (out i = true ↔ i = r)) :
    keepRows out m = some ((List.range m).eraseIdx r) := by
  rw [keepRows_eq]
  have hsplit := range_split m r hr
  have e : ∀ rows, (List.range m).foldlM (keepStep out) rows = (List.range r ++ r :: List.range' (r + 1) (m - r - 1)).foldlM (keepStep out) rows := by
    intro rows; rw [← hsplit]
  rw [e, List.foldlM_append, foldlM_notOut out (List.range r)]
  · show (r :: List.range' (r + 1) (m - r - 1)).foldlM (keepStep out) (List.range m) = _
    rw [List.foldlM_cons]
    have : keepStep out (List.range m) r = some ((List.range m).eraseIdx r) := by
      unfold keepStep
      rw [if_pos ((h r hr).2 rfl), if_pos (by simpa using hr)]
    rw [this]
    exact foldlM_notOut out _ _ fun i hi => by
      rw [List.mem_range'_1] at hi
      rw [← Bool.not_eq_true, h i (by omega)]; omega
  · intro i hi
    rw [List.mem_range] at hi
    rw [← Bool.not_eq_true, h i (by omega)]; omega

theorem keepRows_two (out : Nat → Bool) (m r q : Nat) (hrq : r < q) (hq : q < m) (h : ∀ i, i < m → (out i = true ↔ i = r ∨ i = q)) :
    keepRows out m = if q + 1 < m then some (((List.range m).eraseIdx r).eraseIdx q) else none := by
  rw [keepRows_eq]
  have hsplit : List.range m = (List.range r ++ r :: List.range' (r + 1) (q - r - 1)) ++ q :: List.range' (q + 1) (m - q - 1) := by
    rw [← range_split q r hrq, ← range_split m q hq]
  have e : ∀ rows, (List.range m).foldlM (keepStep out) rows =
      ((List.range r ++ r :: List.range' (r + 1) (q - r - 1)) ++ q :: List.range' (q + 1) (m - q - 1)).foldlM (keepStep out) rows := by
    intro rows; rw [← hsplit]
  have h1 : (List.range r ++ r :: List.range' (r + 1) (q - r - 1)).foldlM (keepStep out) (List.range m) = some ((List.range m).eraseIdx r) := by
    rw [List.foldlM_append, foldlM_notOut out (List.range r)]
    · show (r :: List.range' (r + 1) (q - r - 1)).foldlM (keepStep out) (List.range m) = _
      rw [List.foldlM_cons]
      have : keepStep out (List.range m) r = some ((List.range m).eraseIdx r) := by
        unfold keepStep
        rw [if_pos ((h r (by omega)).2 (Or.inl rfl)), if_pos (by simp; omega)]
      rw [this]
      exact foldlM_notOut out _ _ fun i hi => by
        rw [List.mem_range'_1] at hi
        rw [← Bool.not_eq_true, h i (by omega)]; omega
    · intro i hi
      rw [List.mem_range] at hi
      rw [← Bool.not_eq_true, h i (by omega)]; omega
  rw [e, List.foldlM_append, h1]
  show (q :: List.range' (q + 1) (m - q - 1)).foldlM (keepStep out) ((List.range m).eraseIdx r) = _
  rw [List.foldlM_cons]
  have hlen : ((List.range m).eraseIdx r).length = m - 1 := by rw [List.length_eraseIdx_of_lt (by simp; omega), List.length_range]
  have : keepStep out ((List.range m).eraseIdx r) q = if q + 1 < m then some (((List.range m).eraseIdx r).eraseIdx q) else none := by
    unfold keepStep
    rw [if_pos ((h q hq).2 (Or.inr rfl)), hlen]
    by_cases hc : q + 1 < m
    · rw [if_pos (by omega), if_pos hc]
    · rw [if_neg (by omega), if_neg hc]
  rw [this]
  split
  · exact foldlM_notOut out _ _ fun i hi => by
      rw [List.mem_range'_1] at hi
      rw [← Bool.not_eq_true, h i (by omega)]; omega
  · rfl

theorem range_eraseIdx (m r a : Nat) : ((List.range m).eraseIdx r)[a]? = if skip r a < m then some (skip r a) else none := by
  rw [List.getElem?_eraseIdx]
  unfold skip
  have key : ∀ b, (List.range m)[b]? = if b < m then some b else none := by
    intro b
    split
    · rename_i hb; rw [List.getElem?_eq_getElem (by simpa using hb)]; simp
    · rename_i hb; rw [List.getElem?_eq_none (by simpa using hb)]
  split <;> rw [key]

theorem out_iff {G : NG α} (h : G.Aligned) (S : List α) (i : Nat) (hi : i < G.num) :
    ((G.nodes[i]?).all fun a => decide (a ∉ S)) = true ↔ ∃ a, G.map a = some i ∧ a ∉ S := by
  have hl : i < G.nodes.length := by rw [← h.num]; exact hi
  rw [List.getElem?_eq_getElem hl]
  simp only [Option.all_some, decide_eq_true_eq]
  constructor
  · intro h1; exact ⟨_, (h.map _ _).2 (List.getElem?_eq_getElem hl), h1⟩
  · rintro ⟨a, h1, h2⟩
    have := (h.map _ _).1 h1
    rw [List.getElem?_eq_getElem hl] at this
    rw [Option.some.inj this]; exact h2

/-- **C108, what holds (`subgraph`).** Leaving out one node gives a consistent graph on the other nodes with all edges between them. -/
theorem C108_subgraph_partial (G : NG α) (h : G.Aligned) (v : α) (hv : v ∈ G.nodes) :
    ∃ G', subgraph G (G.nodes.erase v) = some G' ∧ G'.Aligned ∧ G'.nodes = G.nodes.filter (· ≠ v) ∧
      ∀ a b, a ∈ G'.nodes → b ∈ G'.nodes → G'.markAt a b = G.markAt a b := by
  obtain ⟨r, hr'⟩ := List.getElem?_of_mem hv
  have hr := (h.map v r).2 hr'
  have hrl := map_lt h hr
  have hfil : G.nodes.erase v = G.nodes.filter (· ≠ v) := by
    rw [h.nodup.erase_eq_filter v]
    refine List.filter_congr fun a _ => ?_
    simp [bne, BEq.beq]
  have hrows := keepRows_one (fun i => (G.nodes[i]?).all fun a => decide (a ∉ G.nodes.erase v)) G.num r hrl (by
    intro i hi
    rw [out_iff h _ i hi]
    constructor
    · rintro ⟨a, h1, h2⟩
      have hav : a = v := by
        by_contra hne
        exact h2 ((List.mem_erase_of_ne hne).2 (List.mem_of_getElem? ((h.map _ _).1 h1)))
      rw [hav, hr] at h1
      exact (Option.some.inj h1).symm
    · rintro rfl
      exact ⟨v, hr, fun hc => h.nodup.not_mem_erase hc⟩)
  refine ⟨_, by unfold subgraph; rw [hrows, Option.map_some], ⟨h.nodup.erase v, rfl, fun a i => buildMap_spec _ (h.nodup.erase v) a i⟩, hfil, ?_⟩
  intro a b ha hb
  have ha' : a ≠ v := by intro e; rw [e] at ha; exact h.nodup.not_mem_erase ha
  have hb' : b ≠ v := by intro e; rw [e] at hb; exact h.nodup.not_mem_erase hb
  rw [← removeNode_mark h v a b ha' hb']
  have hnum : ∀ (c : α) (k : Nat), buildMap (G.nodes.erase v) c = some k → skip r k < G.num := by
    intro c k hk
    have := (buildMap_spec _ (h.nodup.erase v) c k).1 hk
    rw [erase_getElem? h.nodup hr'] at this
    rw [h.num]
    by_contra hc
    rw [List.getElem?_eq_none (by omega)] at this
    cases this
  unfold NG.removeNode
  rw [hr]
  unfold markAt
  simp only
  cases ea : buildMap (G.nodes.erase v) a with
  | none => rfl
  | some i =>
    cases eb : buildMap (G.nodes.erase v) b with
    | none => rfl
    | some j =>
      simp only [range_eraseIdx, if_pos (hnum a i ea), if_pos (hnum b j eb)]

/-- **C108 violated (`subgraph`).** Leave out exactly two nodes, `u` and a later `v`. If `v` is the last node, `subgraph` raises. Otherwise the
node `w` right after `v` gets the marks of the left-out `v`: for every node `c` before `u`. -/
theorem C108_subgraph_violated (G : NG α) (h : G.Aligned) (u v : α) (r q : Nat) (hu : G.map u = some r) (hv : G.map v = some q) (hrq : r < q) :
    (q + 1 = G.num → subgraph G ((G.nodes.erase u).erase v) = none) ∧
    ∀ w c k, G.map w = some (q + 1) → G.map c = some k → k < r →
      ∃ G', subgraph G ((G.nodes.erase u).erase v) = some G' ∧ w ∈ G'.nodes ∧ c ∈ G'.nodes ∧
        G'.markAt w c = G.markAt v c ∧ G'.markAt c w = G.markAt c v := by
  have hu' := (h.map u r).1 hu
  have hv' := (h.map v q).1 hv
  have hql := map_lt h hv
  have huv : u ≠ v := by rintro rfl; rw [hu] at hv; cases hv; omega
  have hn1 := h.nodup.erase u
  have hn2 := hn1.erase v
  have hmem : ∀ a, a ∈ (G.nodes.erase u).erase v ↔ a ∈ G.nodes ∧ a ≠ u ∧ a ≠ v := by
    intro a
    rw [hn1.mem_erase_iff, h.nodup.mem_erase_iff]
    tauto
  have hrows := keepRows_two (fun i => (G.nodes[i]?).all fun a => decide (a ∉ (G.nodes.erase u).erase v)) G.num r q hrq hql (by
    intro i hi
    rw [out_iff h _ i hi]
    constructor
    · rintro ⟨a, h1, h2⟩
      have hag : a ∈ G.nodes := List.mem_of_getElem? ((h.map _ _).1 h1)
      rw [hmem] at h2
      by_cases e1 : a = u
      · rw [e1, hu] at h1; exact Or.inl (Option.some.inj h1).symm
      · by_cases e2 : a = v
        · rw [e2, hv] at h1; exact Or.inr (Option.some.inj h1).symm
        · exact absurd ⟨hag, e1, e2⟩ h2
    · rintro (rfl | rfl)
      · exact ⟨u, hu, by rw [hmem]; tauto⟩
      · exact ⟨v, hv, by rw [hmem]; tauto⟩)
  constructor
  · intro hlast
    unfold subgraph
    rw [hrows, if_neg (by omega)]
    rfl
  · intro w c k hw hc hk
    have hwl := map_lt h hw
    have hw' := (h.map w _).1 hw
    have hc' := (h.map c _).1 hc
    have hwu : w ≠ u := by rintro rfl; rw [hu] at hw; have := Option.some.inj hw; omega
    have hwv : w ≠ v := by rintro rfl; rw [hv] at hw; have := Option.some.inj hw; omega
    have hcu : c ≠ u := by rintro rfl; rw [hu] at hc; have := Option.some.inj hc; omega
    have hcv : c ≠ v := by rintro rfl; rw [hv] at hc; have := Option.some.inj hc; omega
    refine ⟨_, by unfold subgraph; rw [hrows, if_pos (by omega), Option.map_some], (hmem w).2 ⟨List.mem_of_getElem? hw', hwu, hwv⟩,
      (hmem c).2 ⟨List.mem_of_getElem? hc', hcu, hcv⟩, ?_⟩
    have hv1 : (G.nodes.erase u)[q - 1]? = some v := by
      rw [erase_getElem? h.nodup hu']
      have : skip r (q - 1) = q := by unfold skip; rw [if_neg (by omega)]; omega
      rw [this, hv']
    have ew : buildMap ((G.nodes.erase u).erase v) w = some (q - 1) := by
      rw [buildMap_spec _ hn2, erase_getElem? hn1 hv1, erase_getElem? h.nodup hu']
      have : skip r (skip (q - 1) (q - 1)) = q + 1 := by unfold skip; rw [if_neg (lt_irrefl _), if_neg (by omega)]; omega
      rw [this, hw']
    have ec : buildMap ((G.nodes.erase u).erase v) c = some k := by
      rw [buildMap_spec _ hn2, erase_getElem? hn1 hv1, erase_getElem? h.nodup hu']
      have : skip r (skip (q - 1) k) = k := by
        have e1 : skip (q - 1) k = k := by unfold skip; rw [if_pos (by omega)]
        rw [e1]; unfold skip; rw [if_pos hk]
      rw [this, hc']
    have rw1 : (((List.range G.num).eraseIdx r).eraseIdx q)[q - 1]? = some q := by
      rw [List.getElem?_eraseIdx, if_pos (by omega), range_eraseIdx]
      have : skip r (q - 1) = q := by unfold skip; rw [if_neg (by omega)]; omega
      rw [this, if_pos hql]
    have rw2 : (((List.range G.num).eraseIdx r).eraseIdx q)[k]? = some k := by
      rw [List.getElem?_eraseIdx, if_pos (by omega), range_eraseIdx]
      have : skip r k = k := by unfold skip; rw [if_pos hk]
      rw [this, if_pos (by omega)]
    unfold markAt
    simp only [ew, ec, rw1, rw2, hv, hc, and_self]

/-- five nodes, 0→2: leaving out 1 and 2 attaches the edge to 3 -/
example : ((subgraph ((NG.mk' [0, 1, 2, 3, 4]).putEdge 0 2 .tail .arrow) [0, 3, 4]).map fun G => (G.markAt 0 3, G.markAt 3 0)) = some (.tail, .arrow) := by decide

end named

/-! ## C109: dag2pag -/

/-- non-adjacency in a matrix, for all pairs at once -/
def AdjIs (H : GG n) (A : Fin n → Fin n → Prop) : Prop := ∀ a b, H.g a b = .null ↔ ¬ A a b ∧ ¬ A b a

theorem adjIs_addEdge {H : GG n} {A : Fin n → Fin n → Prop} (h : AdjIs H A) (e : Edge n)
    (he : (e.end1 = .tail ∧ e.end2 = .arrow) ∨ (e.end1 = .arrow ∧ e.end2 = .arrow)) :
    AdjIs (H.addEdge e).2 fun a b => A a b ∨ (a = e.node1 ∧ b = e.node2) := by
  intro a b
  have h1 := h a b
  have h2 := h e.node1 e.node2
  have h3 := h e.node2 e.node1
  have h4 := h b a
  rcases he with ⟨he1, he2⟩ | ⟨he1, he2⟩
  · unfold GG.addEdge
    simp only [he1, he2]
    split
    · rename_i hex
      simp at hex
      grind
    · split <;> simp only [adjust_g, setG, upd_apply] <;> grind
  · unfold GG.addEdge
    simp only [he1, he2]
    split
    · rename_i hex
      simp at hex
      repeat' split
      all_goals simp only [setG, upd_apply] at *
      all_goals grind
    · simp only [setG, upd_apply]
      grind

theorem AdjIs.congr {H : GG n} {A A' : Fin n → Fin n → Prop} (h : AdjIs H A) (e : ∀ a b, (A a b ∨ A b a) ↔ (A' a b ∨ A' b a)) : AdjIs H A' := by
  intro a b
  rw [h a b]
  have := e a b
  tauto

theorem adjIs_fold {H : GG n} {A : Fin n → Fin n → Prop} (h : AdjIs H A) (es : List (Edge n))
    (he : ∀ e ∈ es, (e.end1 = .tail ∧ e.end2 = .arrow) ∨ (e.end1 = .arrow ∧ e.end2 = .arrow)) :
    AdjIs (es.foldl (fun H e => (H.addEdge e).2) H) fun a b => A a b ∨ ∃ e ∈ es, a = e.node1 ∧ b = e.node2 := by
  induction es generalizing H A with
  | nil => exact h.congr fun a b => by simp
  | cons e es ih =>
    rw [List.foldl_cons]
    refine (ih (adjIs_addEdge h e (he e List.mem_cons_self)) fun e' he' => he e' (List.mem_cons_of_mem _ he')).congr fun a b => ?_
    simp only [List.mem_cons, exists_eq_or_imp, or_assoc]

theorem adjIs_foldl {H : GG n} {A : Fin n → Fin n → Prop} (h : AdjIs H A) {β : Type} (L : List β) (f : β → List (Edge n))
    (he : ∀ u ∈ L, ∀ e ∈ f u, (e.end1 = .tail ∧ e.end2 = .arrow) ∨ (e.end1 = .arrow ∧ e.end2 = .arrow)) :
    AdjIs (L.foldl (fun H u => (f u).foldl (fun H e => (H.addEdge e).2) H) H) fun a b => A a b ∨ ∃ u ∈ L, ∃ e ∈ f u, a = e.node1 ∧ b = e.node2 := by
  induction L generalizing H A with
  | nil => exact h.congr fun a b => by simp
  | cons u L ih =>
    rw [List.foldl_cons]
    refine (ih (adjIs_fold h (f u) (he u List.mem_cons_self)) fun u' hu' => he u' (List.mem_cons_of_mem _ hu')).congr fun a b => ?_
    simp only [List.mem_cons, exists_eq_or_imp, or_assoc]

/-- all ordered pairs of a list, the way `itertools.combinations(l, 2)` gives them -/
def pairs2 {β : Type} (l : List β) : List (β × β) := l.zipIdx.flatMap fun x => (l.drop (x.2 + 1)).map fun y => (x.1, y)

theorem mem_pairs2 {β : Type} (l : List β) (x y : β) : (x, y) ∈ pairs2 l ↔ ∃ l₁ l₂ l₃, l = l₁ ++ x :: l₂ ++ y :: l₃ := by
  unfold pairs2
  simp only [List.mem_flatMap, List.mem_map, Prod.mk.injEq, Prod.exists, List.mem_zipIdx_iff_getElem?]
  constructor
  · rintro ⟨a, i, h1, b, hb, rfl, rfl⟩
    have hi : i < l.length := by
      by_contra hc
      rw [List.getElem?_eq_none (by omega)] at h1
      cases h1
    obtain ⟨m₁, m₂, hm⟩ := List.append_of_mem hb
    refine ⟨l.take i, m₁, m₂, ?_⟩
    rw [List.append_assoc, List.cons_append, ← hm]
    have : a :: l.drop (i + 1) = l.drop i := by
      rw [List.drop_eq_getElem_cons hi]
      rw [List.getElem?_eq_getElem hi] at h1
      rw [Option.some.inj h1]
    rw [this, List.take_append_drop]
  · rintro ⟨l₁, l₂, l₃, rfl⟩
    refine ⟨x, l₁.length, by simp, y, ?_, rfl, rfl⟩
    have : l₁ ++ x :: l₂ ++ y :: l₃ = (l₁ ++ [x]) ++ (l₂ ++ y :: l₃) := by simp
    rw [this, show l₁.length + 1 = (l₁ ++ [x]).length by simp, List.drop_left]
    simp

/-- Two nodes are adjacent in the graph built by `dag2pag`: by an edge, through an unobserved node between them, or by an unobserved common
parent. -/
def Linked (h : List (Op n)) (obs : List (Fin n)) (a b : Fin n) : Prop :=
  HasEdge h a b ∨ ∃ u, u ∉ obs ∧ HasEdge h u b ∧ (HasEdge h a u ∨ (HasEdge h u a ∧ a ≠ b))

theorem mem_latent (h : List (Op n)) (hl : NoLoops h) (u a b : Fin n) :
    (∃ e ∈ latentEdges (run h) u, a = e.node1 ∧ b = e.node2) ∨ (∃ e ∈ latentEdges (run h) u, b = e.node1 ∧ a = e.node2) ↔
      (HasEdge h a u ∧ HasEdge h u b) ∨ (HasEdge h b u ∧ HasEdge h u a) ∨ (HasEdge h u a ∧ HasEdge h u b ∧ a ≠ b) := by
  have C := (C105_edge_queries_exact h hl).2.1 u
  have hch : (children (run h) u).Pairwise (· < ·) := C.2.2.2.2.1
  have hm : ∀ x y, (∃ e ∈ latentEdges (run h) u, x = e.node1 ∧ y = e.node2) ↔
      (HasEdge h x u ∧ HasEdge h u y) ∨ (x, y) ∈ pairs2 (children (run h) u) := by
    intro x y
    unfold latentEdges
    constructor
    · rintro ⟨e, he, rfl, rfl⟩
      rcases List.mem_append.1 he with he | he
      · rw [List.mem_flatMap] at he
        obtain ⟨p, hp, he⟩ := he
        obtain ⟨c, hc, rfl⟩ := List.mem_map.1 he
        exact Or.inl ⟨(C.1 p).1 hp, (C.2.1 c).1 hc⟩
      · right
        unfold pairs2
        rw [List.mem_flatMap] at he ⊢
        obtain ⟨q, hq, he⟩ := he
        obtain ⟨y, hy, rfl⟩ := List.mem_map.1 he
        exact ⟨q, hq, List.mem_map.2 ⟨y, hy, rfl⟩⟩
    · rintro (⟨h1, h2⟩ | h1)
      · exact ⟨mkEdge x y .tail .arrow, List.mem_append_left _ (List.mem_flatMap.2 ⟨x, (C.1 x).2 h1, List.mem_map.2 ⟨y, (C.2.1 y).2 h2, rfl⟩⟩), rfl, rfl⟩
      · unfold pairs2 at h1
        rw [List.mem_flatMap] at h1
        obtain ⟨q, hq, h1⟩ := h1
        obtain ⟨z, hz, e⟩ := List.mem_map.1 h1
        cases e
        exact ⟨mkEdge q.1 y .arrow .arrow, List.mem_append_right _ (List.mem_flatMap.2 ⟨q, hq, List.mem_map.2 ⟨y, hz, rfl⟩⟩), rfl, rfl⟩
  have hp : ∀ x y, (x, y) ∈ pairs2 (children (run h) u) ↔ x < y ∧ HasEdge h u x ∧ HasEdge h u y := by
    intro x y
    rw [mem_pairs2]
    constructor
    · rintro ⟨l₁, l₂, l₃, e⟩
      rw [e] at hch
      have h1 : x ∈ children (run h) u := by rw [e]; simp
      have h2 : y ∈ children (run h) u := by rw [e]; simp
      refine ⟨?_, (C.2.1 x).1 h1, (C.2.1 y).1 h2⟩
      exact (List.pairwise_append.1 hch).2.2 x (by simp) y (by simp)
    · rintro ⟨hlt, h1, h2⟩
      have m1 := (C.2.1 x).2 h1
      have m2 := (C.2.1 y).2 h2
      obtain ⟨l₁, l₂, e⟩ := List.append_of_mem m1
      rw [e] at m2 hch
      rcases List.mem_append.1 m2 with m2 | m2
      · have := (List.pairwise_append.1 hch).2.2 y m2 x (by simp)
        exact absurd (lt_trans hlt this) (lt_irrefl _)
      · rcases List.mem_cons.1 m2 with rfl | m2
        · exact absurd hlt (lt_irrefl _)
        · obtain ⟨l₃, l₄, e'⟩ := List.append_of_mem m2
          exact ⟨l₁, l₃, l₄, by rw [e, e']; simp⟩
  rw [hm, hm, hp, hp]
  constructor
  · rintro ((h1 | ⟨h1, h2, h3⟩) | (h1 | ⟨h1, h2, h3⟩))
    · exact Or.inl h1
    · exact Or.inr (Or.inr ⟨h2, h3, ne_of_lt h1⟩)
    · exact Or.inr (Or.inl h1)
    · exact Or.inr (Or.inr ⟨h3, h2, (ne_of_lt h1).symm⟩)
  · rintro (h1 | h1 | ⟨h1, h2, h3⟩)
    · exact Or.inl (Or.inl h1)
    · exact Or.inr (Or.inl h1)
    · rcases lt_or_gt_of_ne h3 with h4 | h4
      · exact Or.inl (Or.inr ⟨h4, h1, h2⟩)
      · exact Or.inr (Or.inr ⟨h4, h2, h1⟩)

theorem latent_marks (G : GG n) (u : Fin n) (e : Edge n) (he : e ∈ latentEdges G u) :
    (e.end1 = .tail ∧ e.end2 = .arrow) ∨ (e.end1 = .arrow ∧ e.end2 = .arrow) := by
  unfold latentEdges at he
  rcases List.mem_append.1 he with he | he
  · rw [List.mem_flatMap] at he
    obtain ⟨p, -, he⟩ := he
    obtain ⟨c, -, rfl⟩ := List.mem_map.1 he
    exact Or.inl ⟨rfl, rfl⟩
  · rw [List.mem_flatMap] at he
    obtain ⟨p, -, he⟩ := he
    obtain ⟨c, -, rfl⟩ := List.mem_map.1 he
    exact Or.inr ⟨rfl, rfl⟩

theorem projected_adj (h : List (Op n)) (hl : NoLoops h) (obs : List (Fin n)) : AdjIs (projected (run h) obs) (Linked h obs) := by
  have H := run_holds h hl
  have h0 : AdjIs (GG.empty n) fun _ _ => False := by intro a b; simp
  have h1 := adjIs_foldl h0 (upperPairs n) (fun p => (getEdge (run h) p.1 p.2).toList) (by
    rintro ⟨a, b⟩ - e he
    obtain ⟨g1, g2, g3⟩ := getEdge_holds H a b
    by_cases e1 : HasEdge h a b
    · simp only [g1 e1, Option.toList_some, List.mem_singleton] at he; rw [he]; exact Or.inl ⟨rfl, rfl⟩
    · by_cases e2 : HasEdge h b a
      · simp only [g2 e2, Option.toList_some, List.mem_singleton] at he; rw [he]; exact Or.inl ⟨rfl, rfl⟩
      · simp [g3 e1 e2] at he)
  have h2 := adjIs_foldl h1 ((List.finRange n).filter (· ∉ obs)) (latentEdges (run h)) fun u _ e he => latent_marks _ u e he
  unfold projected
  have hfun : (fun (H : GG n) (p : Fin n × Fin n) => (getEdge (run h) p.1 p.2).elim H fun e => (H.addEdge e).2) =
      fun H p => ((getEdge (run h) p.1 p.2).toList).foldl (fun H e => (H.addEdge e).2) H := by
    funext H p
    cases getEdge (run h) p.1 p.2 <;> rfl
  simp only [hfun]
  refine h2.congr fun a b => ?_
  have hpair : ∀ a b, ((∃ p ∈ upperPairs n, ∃ e ∈ (getEdge (run h) p.1 p.2).toList, a = e.node1 ∧ b = e.node2) ↔ HasEdge h a b) := by
    intro a b
    constructor
    · rintro ⟨⟨x, y⟩, -, e, he, rfl, rfl⟩
      obtain ⟨g1, g2, g3⟩ := getEdge_holds H x y
      by_cases e1 : HasEdge h x y
      · simp only [g1 e1, Option.toList_some, List.mem_singleton] at he; rw [he]; exact e1
      · by_cases e2 : HasEdge h y x
        · simp only [g2 e2, Option.toList_some, List.mem_singleton] at he; rw [he]; exact e2
        · simp [g3 e1 e2] at he
    · intro hab
      have hne : a ≠ b := fun e => hasEdge_irrefl h hl a (by rw [← e] at hab; exact hab)
      have up : ∀ x y : Fin n, x < y → (x, y) ∈ upperPairs n := by
        intro x y hxy
        unfold upperPairs
        rw [List.mem_flatMap]
        exact ⟨x, List.mem_finRange x, List.mem_map.2 ⟨y, (mem_rangeFrom x y).2 hxy, rfl⟩⟩
      rcases lt_or_gt_of_ne hne with hlt | hlt
      · exact ⟨(a, b), up a b hlt, arrowEdge a b, by simp [(getEdge_holds H a b).1 hab], rfl, rfl⟩
      · exact ⟨(b, a), up b a hlt, arrowEdge a b, by simp [(getEdge_holds H b a).2.1 hab], rfl, rfl⟩
  have hlat := fun u => mem_latent h hl u a b
  simp only [hpair, false_or, List.mem_filter, List.mem_finRange, true_and, decide_eq_true_eq]
  unfold Linked
  constructor
  · rintro ((h1 | ⟨u, hu, h1⟩) | (h1 | ⟨u, hu, h1⟩))
    · exact Or.inl (Or.inl h1)
    · rcases (hlat u).1 (Or.inl h1) with ⟨g1, g2⟩ | ⟨g1, g2⟩ | ⟨g1, g2, g3⟩
      · exact Or.inl (Or.inr ⟨u, hu, g2, Or.inl g1⟩)
      · exact Or.inr (Or.inr ⟨u, hu, g2, Or.inl g1⟩)
      · exact Or.inl (Or.inr ⟨u, hu, g2, Or.inr ⟨g1, g3⟩⟩)
    · exact Or.inr (Or.inl h1)
    · rcases (hlat u).1 (Or.inr h1) with ⟨g1, g2⟩ | ⟨g1, g2⟩ | ⟨g1, g2, g3⟩
      · exact Or.inl (Or.inr ⟨u, hu, g2, Or.inl g1⟩)
      · exact Or.inr (Or.inr ⟨u, hu, g2, Or.inl g1⟩)
      · exact Or.inl (Or.inr ⟨u, hu, g2, Or.inr ⟨g1, g3⟩⟩)
  · have back : ∀ u, u ∉ obs → ((HasEdge h a u ∧ HasEdge h u b) ∨ (HasEdge h b u ∧ HasEdge h u a) ∨ (HasEdge h u a ∧ HasEdge h u b ∧ a ≠ b)) →
        (HasEdge h a b ∨ ∃ u, u ∉ obs ∧ ∃ e ∈ latentEdges (run h) u, a = e.node1 ∧ b = e.node2) ∨
        (HasEdge h b a ∨ ∃ u, u ∉ obs ∧ ∃ e ∈ latentEdges (run h) u, b = e.node1 ∧ a = e.node2) := by
      intro u hu hh
      rcases (hlat u).2 hh with g | g
      · exact Or.inl (Or.inr ⟨u, hu, g⟩)
      · exact Or.inr (Or.inr ⟨u, hu, g⟩)
    rintro ((h1 | ⟨u, hu, h1, h2 | ⟨h2, h3⟩⟩) | (h1 | ⟨u, hu, h1, h2 | ⟨h2, h3⟩⟩))
    · exact Or.inl (Or.inl h1)
    · exact back u hu (Or.inl ⟨h2, h1⟩)
    · exact back u hu (Or.inr (Or.inr ⟨h2, h1, h3⟩))
    · exact Or.inr (Or.inl h1)
    · exact back u hu (Or.inr (Or.inl ⟨h2, h1⟩))
    · exact back u hu (Or.inr (Or.inr ⟨h1, h2, Ne.symm h3⟩))

theorem foldlM_none_iff {β γ : Type} (f : γ → β → Option γ) (ok : β → Prop) (hf : ∀ s b, f s b = none ↔ ¬ ok b) (L : List β) (s : γ) :
    L.foldlM f s = none ↔ ∃ b ∈ L, ¬ ok b := by
  induction L generalizing s with
  | nil => simp
  | cons b L ih =>
    rw [List.foldlM_cons]
    cases hb : f s b with
    | none => simp [(hf s b).1 hb]
    | some s' =>
      have : ok b := by
        by_contra hc
        rw [(hf s b).2 hc] at hb; cases hb
      show List.foldlM f s' L = none ↔ _
      rw [ih]
      simp [this]

/-- **C109 violated (`Dag.dag2pag`).** For every `Dag` and all lists of observed nodes: the method raises exactly when two observed nodes are
linked neither by an edge, nor through a single unobserved node, nor by an unobserved common parent. So a PAG with a missing edge is
(almost) never returned. -/
theorem C109_dag2pag_violated (h : List (Op n)) (hl : NoLoops h) (obs : List (Fin n)) (hobs : obs.Nodup) :
    dag2pag (run h) obs = none ↔ ∃ a ∈ obs, ∃ b ∈ obs, a ≠ b ∧ ¬ Linked h obs a b ∧ ¬ Linked h obs b a := by
  have hA := projected_adj h hl obs
  unfold dag2pag
  rw [foldlM_none_iff _ (fun p => (projected (run h) obs).g p.1 p.2 ≠ .null)]
  · show (∃ p ∈ pairs2 obs, _) ↔ _
    constructor
    · rintro ⟨⟨a, b⟩, hp, hn⟩
      rw [mem_pairs2] at hp
      obtain ⟨l₁, l₂, l₃, rfl⟩ := hp
      rw [not_not, hA] at hn
      refine ⟨a, by simp, b, by simp, ?_, hn⟩
      have := (List.nodup_append.1 hobs).2.2 a (by simp) b (by simp)
      exact this
    · rintro ⟨a, ha, b, hb, hne, h1, h2⟩
      obtain ⟨l₁, l₂, rfl⟩ := List.append_of_mem ha
      rcases List.mem_append.1 hb with hb | hb
      · obtain ⟨m₁, m₂, rfl⟩ := List.append_of_mem hb
        exact ⟨(b, a), (mem_pairs2 _ _ _).2 ⟨m₁, m₂, l₂, by simp⟩, by rw [not_not, hA]; exact ⟨h2, h1⟩⟩
      · rcases List.mem_cons.1 hb with hb | hb
        · exact absurd hb.symm hne
        · obtain ⟨m₁, m₂, rfl⟩ := List.append_of_mem hb
          exact ⟨(a, b), (mem_pairs2 _ _ _).2 ⟨l₁, m₁, m₂, by simp⟩, by rw [not_not, hA]; exact ⟨h1, h2⟩⟩
  · intro P p
    unfold GG.getEdge
    simp

/-- the chain 0→1→2, all observed: raises; with 1 unobserved: 0→2 -/
example : (dag2pag (run (n := 3) (addAll [(0, 1), (1, 2)])) [0, 1, 2]).isNone = true ∧
    ((dag2pag (run (n := 3) (addAll [(0, 1), (1, 2)])) [0, 2]).map fun P => (P.g 0 2, P.g 2 0)) = some (.tail, .arrow) := by decide

end DagC
end CL
