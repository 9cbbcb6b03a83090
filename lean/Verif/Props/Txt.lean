import Verif.Model.Txt
import Verif.Props.GraphQueries
import Verif.Props.Cache

/-!
# C50: writing a graph as text and reading it back
-/
namespace CL.Txt
open GG
variable {n : Nat}

/-! ## Python string functions on well-formed pieces -/

theorem splitBy_free {p : Char → Bool} : ∀ {a : List Char}, (∀ x ∈ a, p x = false) → splitBy p a = [a]
  | [], _ => rfl
  | c :: cs, h => by
    have ih := splitBy_free (p := p) (a := cs) (fun x hx => h x (List.mem_cons_of_mem _ hx))
    have hc : p c = false := h c (by simp)
    simp [splitBy, ih, hc]

theorem splitBy_app {p : Char → Bool} {c : Char} (hc : p c = true) {b : List Char} :
    ∀ {a : List Char}, (∀ x ∈ a, p x = false) → splitBy p (a ++ c :: b) = a :: splitBy p b
  | [], _ => by simp [splitBy, hc]
  | x :: a, h => by
    have ih := splitBy_app hc (b := b) (a := a) (fun x hx => h x (List.mem_cons_of_mem _ hx))
    have hx : p x = false := h x (by simp)
    simp [splitBy, ih, hx]

theorem words_free {ws : Char → Bool} {a : List Char} (h : ∀ x ∈ a, ws x = false) (ha : a ≠ []) : words ws a = [a] := by
  simp [words, splitBy_free h, ha]

theorem words_app {ws : Char → Bool} {c : Char} (hc : ws c = true) {a b : List Char} (h : ∀ x ∈ a, ws x = false) (ha : a ≠ []) :
    words ws (a ++ c :: b) = a :: words ws b := by
  simp [words, splitBy_app hc h, ha]

theorem dropWhile_head {p : Char → Bool} {l : List Char} (h : ∀ c, l.head? = some c → p c = false) : l.dropWhile p = l := by
  cases l with
  | nil => rfl
  | cons x l => simp [List.dropWhile, h x rfl]

theorem strip_eq {ws : Char → Bool} {l : List Char} (h1 : ∀ c, l.head? = some c → ws c = false)
    (h2 : ∀ c, l.getLast? = some c → ws c = false) : strip ws l = l := by
  unfold strip
  rw [dropWhile_head h1, dropWhile_head (by simpa using h2), List.reverse_reverse]

/-! ## The specification: which names and white-space predicates are meant -/

/-- The characters the writer itself puts into the text, other than the two separators blank and newline. -/
def formatChars : List Char := "Graph Nodes:Edges0123456789.-<>o;".toList.filter (· ≠ ' ')

/-- A sensible white-space predicate: blank and newline are white space, the characters of the format are not. -/
structure SpaceLike (ws : Char → Bool) : Prop where
  blank : ws ' ' = true
  newline : ws '\n' = true
  format : ∀ c ∈ formatChars, ws c = false

/-- Names that survive: some node, no repetition, no empty name, no white space or semicolon in a name, and no node called
`Nodes:`. -/
structure GoodNames (ws : Char → Bool) (names : List (List Char)) : Prop where
  nonempty : names ≠ []
  nodup : names.Nodup
  ne_nil : ∀ x ∈ names, x ≠ []
  noSpace : ∀ x ∈ names, ∀ c ∈ x, ws c = false
  noSemi : ∀ x ∈ names, ';' ∉ x
  noKey : ∀ x ∈ names, x ≠ "Nodes:".toList

theorem SpaceLike.nl {ws : Char → Bool} (hw : SpaceLike ws) {c : Char} (h : ws c = false) : (c == '\n') = false := by
  have : c ≠ '\n' := fun e => by subst e; rw [hw.newline] at h; cases h
  simpa using this

/-! ## Lines -/

theorem joinSemi_mem : ∀ (l : List (List Char)) (c : Char), c ∈ joinSemi l → c = ';' ∨ ∃ x ∈ l, c ∈ x
  | [], c, h => by simp [joinSemi] at h
  | [x], c, h => Or.inr ⟨x, by simp, by simpa [joinSemi] using h⟩
  | x :: y :: l, c, h => by
    simp only [joinSemi, List.mem_append, List.mem_cons] at h
    rcases h with h | h | h
    · exact Or.inr ⟨x, by simp, h⟩
    · exact Or.inl h
    · rcases joinSemi_mem (y :: l) c h with h' | ⟨z, hz, hc⟩
      · exact Or.inl h'
      · exact Or.inr ⟨z, List.mem_cons_of_mem _ hz, hc⟩

theorem splitBy_joinSemi : ∀ (l : List (List Char)), l ≠ [] → (∀ x ∈ l, ';' ∉ x) → splitBy (· == ';') (joinSemi l) = l
  | [], h, _ => absurd rfl h
  | [x], _, h => splitBy_free (fun c hc => by
      have : c ≠ ';' := fun e => h x (by simp) (e ▸ hc)
      simpa using this)
  | x :: y :: l, _, h => by
    rw [joinSemi, splitBy_app (by simp) (fun c hc => by
      have : c ≠ ';' := fun e => h x (by simp) (e ▸ hc)
      simpa using this), splitBy_joinSemi (y :: l) (by simp) (fun z hz => h z (List.mem_cons_of_mem _ hz))]

theorem joinSemi_ne_nil : ∀ (l : List (List Char)), l ≠ [] → (∀ x ∈ l, x ≠ []) → joinSemi l ≠ []
  | [], h, _ => absurd rfl h
  | [x], _, h => h x (by simp)
  | x :: y :: l, _, _ => by simp [joinSemi]

theorem foldl_addNode (l : List (List Char)) : ∀ (acc : List (List Char)), (acc ++ l).Nodup → l.foldl addNode acc = acc ++ l := by
  induction l with
  | nil => intro acc _; simp
  | cons x l ih =>
    intro acc h
    have hx : x ∉ acc := by
      rw [List.nodup_append] at h
      exact fun hx => h.2.2 x hx x (by simp) rfl
    rw [List.foldl_cons, addNode, if_neg hx, ih _ (by simpa using h)]
    simp

theorem digitChar_format {a : Nat} (ha : a < 10) : Nat.digitChar a ∈ formatChars := by
  interval_cases a <;> decide

theorem strNat_format (k : Nat) (c : Char) (h : c ∈ strNat k) : c ∈ formatChars := by
  unfold strNat at h
  split at h
  · simp only [List.mem_singleton] at h; subst h; decide
  · rw [List.mem_reverse, List.mem_map] at h
    obtain ⟨d, hd, rfl⟩ := h
    exact digitChar_format (Nat.digits_lt_base (by decide) hd)

/-- The text of one numbered edge line. -/
def edgeLine (name : Fin n → List Char) (k : Nat) (e : Edge n) : List Char := strNat k ++ '.' :: ' ' :: edgeStr name e

/-- The lines of the edge section. -/
def lineList (name : Fin n → List Char) : Nat → List (Edge n) → List (List Char)
  | _, [] => [[]]
  | c, e :: es => edgeLine name (c + 1) e :: lineList name (c + 1) es

theorem ch1_format (m : Mark) : ch1 m ∈ formatChars := by cases m <;> decide
theorem ch2_format (m : Mark) : ch2 m ∈ formatChars := by cases m <;> decide

section
variable {ws : Char → Bool} (hw : SpaceLike ws)
include hw

theorem edgeLine_noNl {name : Fin n → List Char} (hn : ∀ i, ∀ c ∈ name i, ws c = false) (k : Nat) (e : Edge n) :
    ∀ x ∈ edgeLine name k e, (x == '\n') = false := by
  intro x hx
  simp only [edgeLine, edgeStr, List.mem_append, List.mem_cons, List.not_mem_nil, or_false] at hx
  have hf : ∀ c ∈ formatChars, (c == '\n') = false := fun c hc => hw.nl (hw.format c hc)
  rcases hx with h | rfl | rfl | h | rfl | (rfl | rfl | rfl) | rfl | h
  · exact hf x (strNat_format k x h)
  · decide
  · decide
  · exact hw.nl (hn _ x h)
  · decide
  · exact hf _ (ch1_format _)
  · decide
  · exact hf _ (ch2_format _)
  · decide
  · exact hw.nl (hn _ x h)

theorem splitBy_edgeLines {name : Fin n → List Char} (hn : ∀ i, ∀ c ∈ name i, ws c = false) :
    ∀ (es : List (Edge n)) (c : Nat), splitBy (· == '\n') (edgeLines name c es) = lineList name c es
  | [], _ => rfl
  | e :: es, c => by
    have : edgeLines name c (e :: es) = edgeLine name (c + 1) e ++ '\n' :: edgeLines name (c + 1) es := by
      simp [edgeLines, edgeLine]
    rw [this, splitBy_app (by simp) (edgeLine_noNl hw hn (c + 1) e), splitBy_edgeLines hn es (c + 1)]
    rfl

theorem edgeLine_words {name : Fin n → List Char} (hn : ∀ i, ∀ c ∈ name i, ws c = false) (h0 : ∀ i, name i ≠ []) (k : Nat)
    (e : Edge n) : words ws (edgeLine name k e) = [strNat k ++ ['.'], name e.node1, [ch1 e.end1, '-', ch2 e.end2], name e.node2] := by
  have : edgeLine name k e = (strNat k ++ ['.']) ++ ' ' :: edgeStr name e := by simp [edgeLine]
  rw [this, words_app hw.blank, edgeStr, words_app hw.blank (hn _) (h0 _), words_app hw.blank, words_free (hn _) (h0 _)]
  · intro x hx
    simp only [List.mem_cons, List.not_mem_nil, or_false] at hx
    rcases hx with rfl | rfl | rfl
    · exact hw.format _ (ch1_format _)
    · exact hw.format _ (by decide)
    · exact hw.format _ (ch2_format _)
  · simp
  · intro x hx
    simp only [List.mem_append, List.mem_singleton] at hx
    rcases hx with h | rfl
    · exact hw.format _ (strNat_format k x h)
    · exact hw.format _ (by decide)
  · simp

theorem edgeLine_strip {name : Fin n → List Char} (hn : ∀ i, ∀ c ∈ name i, ws c = false) (h0 : ∀ i, name i ≠ []) (k : Nat)
    (e : Edge n) : strip ws (edgeLine name k e) = edgeLine name k e := by
  refine strip_eq (fun c hc => ?_) (fun c hc => ?_)
  · obtain ⟨x, xs, hx⟩ := List.exists_cons_of_ne_nil (strNat_ne_nil k)
    have : c ∈ strNat k := by
      rw [edgeLine, hx] at hc
      simp only [List.cons_append, List.head?_cons, Option.some.injEq] at hc
      rw [hx, ← hc]; simp
    exact hw.format _ (strNat_format k c this)
  · have : edgeLine name k e = (strNat k ++ '.' :: ' ' :: (name e.node1 ++ ' ' :: ([ch1 e.end1, '-', ch2 e.end2] ++ [' ']))) ++ name e.node2 := by
      simp [edgeLine, edgeStr]
    rw [this, List.getLast?_append_of_ne_nil _ (h0 _)] at hc
    exact hn _ c (List.mem_of_getLast? hc)

/-- Reading one edge line appends exactly the printed edge. -/
theorem step_edgeLine {name : Fin n → List Char} {nodes : List (List Char)} (hn : ∀ i, ∀ c ∈ name i, ws c = false)
    (h0 : ∀ i, name i ≠ []) (hk : ∀ i, name i ≠ "Nodes:".toList) (hm : ∀ i, name i ∈ nodes) (k : Nat) (e : Edge n)
    (he1 : e.end1 = .tail ∨ e.end1 = .arrow ∨ e.end1 = .circle) (he2 : e.end2 = .tail ∨ e.end2 = .arrow ∨ e.end2 = .circle)
    (es : List (List Char × List Char × Mark × Mark)) :
    step ws ⟨false, nodes, es⟩ (edgeLine name k e) =
      some ⟨false, nodes, es ++ [(name e.node1, name e.node2, e.end1, e.end2)]⟩ := by
  unfold step
  simp only [edgeLine_strip hw hn h0 k e, edgeLine_words hw hn h0 k e]
  have h1 : ¬ (some (name e.node1) = some "Nodes:".toList) := fun h => hk _ (Option.some.inj h)
  have hread : readEdgeLine ⟨false, nodes, es⟩ [strNat k ++ ['.'], name e.node1, [ch1 e.end1, '-', ch2 e.end2], name e.node2] =
      some ⟨false, nodes, es ++ [(name e.node1, name e.node2, e.end1, e.end2)]⟩ := by
    rcases he1 with h1 | h1 | h1 <;> rcases he2 with h2 | h2 | h2 <;>
      simp [readEdgeLine, ch1, ch2, toEndpoint, hm, h1, h2]
  rw [hread]
  simp only [List.getElem?_cons_succ, List.getElem?_cons_zero, h1, and_false, if_false, Bool.false_eq_true]
  simp

theorem fold_lines {name : Fin n → List Char} {nodes : List (List Char)} (hn : ∀ i, ∀ c ∈ name i, ws c = false)
    (h0 : ∀ i, name i ≠ []) (hk : ∀ i, name i ≠ "Nodes:".toList) (hm : ∀ i, name i ∈ nodes) :
    ∀ (l : List (Edge n)) (c : Nat) (es : List (List Char × List Char × Mark × Mark)),
      (∀ e ∈ l, (e.end1 = .tail ∨ e.end1 = .arrow ∨ e.end1 = .circle) ∧ (e.end2 = .tail ∨ e.end2 = .arrow ∨ e.end2 = .circle)) →
      (lineList name c l).foldlM (step ws) ⟨false, nodes, es⟩ =
        some ⟨false, nodes, es ++ l.map fun e => (name e.node1, name e.node2, e.end1, e.end2)⟩
  | [], c, es, _ => by
    simp [lineList, step, strip, words, splitBy]
  | e :: l, c, es, h => by
    rw [lineList, List.foldlM_cons, step_edgeLine hw hn h0 hk hm _ e (h e (by simp)).1 (h e (by simp)).2]
    simp only [Option.bind_eq_bind, Option.bind_some]
    rw [fold_lines hn h0 hk hm l (c + 1) _ (fun e' he' => h e' (List.mem_cons_of_mem _ he'))]
    simp

theorem header1 : strip ws "Graph Nodes:".toList = "Graph Nodes:".toList ∧
    words ws "Graph Nodes:".toList = ["Graph".toList, "Nodes:".toList] := by
  have hf : ∀ c ∈ formatChars, ws c = false := hw.format
  refine ⟨strip_eq (fun c hc => ?_) (fun c hc => ?_), ?_⟩
  · have : c = 'G' := by simpa using hc.symm
    subst this; exact hf _ (by decide)
  · have : c = ':' := by simpa using hc.symm
    subst this; exact hf _ (by decide)
  · have : "Graph Nodes:".toList = "Graph".toList ++ ' ' :: "Nodes:".toList := by decide
    rw [this, words_app hw.blank (fun x hx => hf x ?_) (by decide), words_free (fun x hx => hf x ?_) (by decide)]
    · revert x; decide
    · revert x; decide

theorem header2 : strip ws "Graph Edges:".toList = "Graph Edges:".toList ∧
    words ws "Graph Edges:".toList = ["Graph".toList, "Edges:".toList] := by
  have hf : ∀ c ∈ formatChars, ws c = false := hw.format
  refine ⟨strip_eq (fun c hc => ?_) (fun c hc => ?_), ?_⟩
  · have : c = 'G' := by simpa using hc.symm
    subst this; exact hf _ (by decide)
  · have : c = ':' := by simpa using hc.symm
    subst this; exact hf _ (by decide)
  · have : "Graph Edges:".toList = "Graph".toList ++ ' ' :: "Edges:".toList := by decide
    rw [this, words_app hw.blank (fun x hx => hf x ?_) (by decide), words_free (fun x hx => hf x ?_) (by decide)]
    · revert x; decide
    · revert x; decide

theorem fold_graphString {names : List (List Char)} (hg : GoodNames ws names) {name : Fin n → List Char}
    (hm : ∀ i, name i ∈ names) (G : GG n)
    (he : ∀ e ∈ G.graphEdges, (e.end1 = .tail ∨ e.end1 = .arrow ∨ e.end1 = .circle) ∧
      (e.end2 = .tail ∨ e.end2 = .arrow ∨ e.end2 = .circle)) :
    (splitBy (· == '\n') (graphString names name G)).foldlM (step ws) ⟨false, [], []⟩ =
      some ⟨false, names, G.graphEdges.map fun e => (name e.node1, name e.node2, e.end1, e.end2)⟩ := by
  have hn : ∀ i, ∀ c ∈ name i, ws c = false := fun i => hg.noSpace _ (hm i)
  have hj : ∀ x ∈ joinSemi names, ws x = false := by
    intro x hx
    rcases joinSemi_mem names x hx with rfl | ⟨y, hy, hc⟩
    · exact hw.format _ (by decide)
    · exact hg.noSpace y hy x hc
  have hj0 : joinSemi names ≠ [] := joinSemi_ne_nil _ hg.nonempty hg.ne_nil
  unfold graphString
  rw [splitBy_app (by simp) (by decide), splitBy_app (by simp) (fun x hx => hw.nl (hj x hx)),
    show ('\n' :: ("Graph Edges:".toList ++ '\n' :: edgeLines name 0 G.graphEdges) : List Char) =
      [] ++ '\n' :: ("Graph Edges:".toList ++ '\n' :: edgeLines name 0 G.graphEdges) from rfl,
    splitBy_app (by simp) (by simp), splitBy_app (by simp) (by decide), splitBy_edgeLines hw hn]
  have s1 : step ws ⟨false, [], []⟩ "Graph Nodes:".toList = some ⟨true, [], []⟩ := by
    unfold step
    simp only [(header1 hw).1, (header1 hw).2]
    simp
  have s2 : step ws ⟨true, [], []⟩ (joinSemi names) = some ⟨false, names, []⟩ := by
    have e1 : strip ws (joinSemi names) = joinSemi names :=
      strip_eq (fun c hc => hj c (List.mem_of_head? hc)) (fun c hc => hj c (List.mem_of_getLast? hc))
    unfold step
    simp only [e1, words_free hj hj0, splitBy_joinSemi names hg.nonempty hg.noSemi]
    have : 0 < (joinSemi names).length := List.length_pos_iff.2 hj0
    simp [this, foldl_addNode names [] (by simpa using hg.nodup)]
  have s3 : step ws ⟨false, names, []⟩ [] = some ⟨false, names, []⟩ := by
    simp [step, strip, words, splitBy]
  have s4 : step ws ⟨false, names, []⟩ "Graph Edges:".toList = some ⟨false, names, []⟩ := by
    unfold step
    simp only [(header2 hw).1, (header2 hw).2]
    have : ¬ ("Edges:".toList = "Nodes:".toList) := by decide
    simp
  simp only [List.foldlM_cons, s1, s2, s3, s4, Option.bind_eq_bind, Option.bind_some]
  rw [fold_lines hw hn (fun i => hg.ne_nil _ (hm i)) (fun i => hg.noKey _ (hm i)) hm _ _ _ he]
  simp

end

/-! ## Rebuilding the matrix -/

theorem readAdd_g {H : GG n} {x y : Fin n} {m1 m2 : Mark} (hxy : x ≠ y) (h : H.g x y = .null) (h' : H.g y x = .null)
    (h1 : m1 = .tail ∨ m1 = .arrow ∨ m1 = .circle) (h2 : m2 = .tail ∨ m2 = .arrow ∨ m2 = .circle)
    (hct : ¬ (m1 = .circle ∧ m2 = .tail)) (a b : Fin n) :
    ((H.addEdge (readEdge (mkEdge x y m1 m2).node1 (mkEdge x y m1 m2).node2 (mkEdge x y m1 m2).end1 (mkEdge x y m1 m2).end2)).2).g a b =
      if a = x ∧ b = y then m1 else if a = y ∧ b = x then m2 else H.g a b := by
  have hyx : ¬ y = x := fun e => hxy e.symm
  rcases h1 with rfl | rfl | rfl <;> rcases h2 with rfl | rfl | rfl <;>
    first
    | exact absurd ⟨rfl, rfl⟩ hct
    | (simp [addEdge, readEdge, modEndpoint, mkEdge, pointingLeft, Edge.setEndpoint1, Edge.setEndpoint2, Edge.normalize, h, h',
        upd_apply, hxy, hyx] <;> grind)

theorem build_fold {G : GG n} (hs : ∀ i j, i < j → G.g i j ≠ .null → (G.g i j = .tail ∨ G.g i j = .arrow ∨ G.g i j = .circle) ∧
      (G.g j i = .tail ∨ G.g j i = .arrow ∨ G.g j i = .circle) ∧ ¬ (G.g i j = .circle ∧ G.g j i = .tail)) (ps : List (Fin n × Fin n)) :
    ps.Nodup → (∀ p ∈ ps, p.1 < p.2 ∧ G.g p.1 p.2 ≠ .null) → ∀ a b,
      (ps.foldl (fun (H : GG n) p => (H.addEdge (readEdge (mkEdge p.1 p.2 (G.g p.1 p.2) (G.g p.2 p.1)).node1
        (mkEdge p.1 p.2 (G.g p.1 p.2) (G.g p.2 p.1)).node2 (mkEdge p.1 p.2 (G.g p.1 p.2) (G.g p.2 p.1)).end1
        (mkEdge p.1 p.2 (G.g p.1 p.2) (G.g p.2 p.1)).end2)).2) (GG.empty n)).g a b =
      if (a, b) ∈ ps ∨ (b, a) ∈ ps then G.g a b else .null := by
  induction ps using List.reverseRecOn with
  | nil => intro _ _ a b; simp
  | append_singleton ps p ih =>
    intro hn hp a b
    rw [List.foldl_append, List.foldl_cons, List.foldl_nil]
    have hn' : ps.Nodup ∧ p ∉ ps := by
      rw [List.nodup_append] at hn
      exact ⟨hn.1, fun h => hn.2.2 p h p (by simp) rfl⟩
    have hI := ih hn'.1 (fun q hq => hp q (by simp [hq]))
    obtain ⟨x, y⟩ := p
    have hxy := hp (x, y) (by simp)
    dsimp only at hxy
    have hr : (y, x) ∉ ps := fun h => by
      have := (hp (y, x) (by simp [h])).1
      exact absurd this (not_lt.2 hxy.1.le)
    have hc := hs x y hxy.1 hxy.2
    rw [readAdd_g hxy.1.ne (by rw [hI]; simp [hn'.2, hr]) (by rw [hI]; simp [hn'.2, hr]) hc.1 hc.2.1 hc.2.2 a b, hI a b]
    simp only [List.mem_append, List.mem_singleton, Prod.mk.injEq]
    by_cases h1 : a = x ∧ b = y
    · obtain ⟨rfl, rfl⟩ := h1
      simp
    · by_cases h2 : a = y ∧ b = x
      · obtain ⟨rfl, rfl⟩ := h2
        simp [h1]
      · have h3 : ¬ (b = x ∧ a = y) := fun h => h2 ⟨h.2, h.1⟩
        simp [h1, h2, h3]

/-- The name of node `i`. -/
abbrev nameOf (names : List (List Char)) : Fin names.length → List Char := fun i => names[i]

/-- **C50 (partial).** For every graph (any history of graph operations) without self loops, without doubled edges and without
an edge with a circle at the lower-numbered and a tail at the higher-numbered node, whose nodes have distinct printable names,
reading back the text written by `str(graph)` yields a graph with the same nodes in the same order and the same mark at every
end of every edge. Missing: the circle–tail edges (`C50_circle_tail_violated`) and the graph without nodes (`C50_empty_violated`). -/
theorem C50_roundtrip_partial {ws : Char → Bool} (hw : SpaceLike ws) {names : List (List Char)} (hg : GoodNames ws names)
    (G : GG names.length) (hwf : G.WF) (hs : G.Simple) (hloop : ∀ i, G.g i i = .null)
    (hct : ∀ i j, i < j → ¬ (G.g i j = .circle ∧ G.g j i = .tail)) :
    ∃ H : GG names.length, read ws (graphString names (nameOf names) G) = some ⟨names, H⟩ ∧ ∀ i j, H.g i j = G.g i j := by
  have hmark : ∀ i j, G.g i j ≠ .null → (G.g i j = .tail ∨ G.g i j = .arrow ∨ G.g i j = .circle) := by
    intro i j h
    have h1 := hs i j
    have h2 := hwf.noStar i j
    cases hm : G.g i j <;> simp_all
  have hs' : ∀ i j, i < j → G.g i j ≠ .null → (G.g i j = .tail ∨ G.g i j = .arrow ∨ G.g i j = .circle) ∧
      (G.g j i = .tail ∨ G.g j i = .arrow ∨ G.g j i = .circle) ∧ ¬ (G.g i j = .circle ∧ G.g j i = .tail) := fun i j hij h =>
    ⟨hmark i j h, hmark j i (fun e => h ((hwf.symm i j).2 e)), hct i j hij⟩
  have hge := graphEdges_eq hwf hs
  have hends : ∀ e ∈ G.graphEdges, (e.end1 = .tail ∨ e.end1 = .arrow ∨ e.end1 = .circle) ∧
      (e.end2 = .tail ∨ e.end2 = .arrow ∨ e.end2 = .circle) := by
    intro e he
    rw [hge, List.mem_map] at he
    obtain ⟨⟨i, j⟩, hp, rfl⟩ := he
    rw [List.mem_filter, mem_upperPairs] at hp
    have := hs' i j hp.1 (by simpa using hp.2)
    dsimp only
    unfold mkEdge
    split <;> [exact ⟨this.2.1, this.1⟩; exact ⟨this.1, this.2.1⟩]
  refine ⟨_, by rw [read, fold_graphString hw hg (name := nameOf names) (fun i => List.getElem_mem _) G hends]; rfl, fun i j => ?_⟩
  have hidx : ∀ k : Fin names.length, names.idxOf (names[k]) = k := fun k => hg.nodup.idxOf_getElem k k.2
  have hb : build names (G.graphEdges.map fun e => (nameOf names e.node1, nameOf names e.node2, e.end1, e.end2)) =
      G.graphEdges.foldl (fun H e => (H.addEdge (readEdge e.node1 e.node2 e.end1 e.end2)).2) (GG.empty names.length) := by
    unfold build
    rw [List.foldl_map]
    congr 1
    funext H e
    have h1 := hidx e.node1
    have h2 := hidx e.node2
    dsimp only [nameOf]
    rw [dif_pos ⟨by rw [h1]; exact e.node1.2, by rw [h2]; exact e.node2.2⟩]
    congr 4 <;> exact Fin.ext (by assumption)
  show (build names _).g i j = _
  rw [hb, hge, List.foldl_map, build_fold hs' _ (nodup_upperPairs.filter _) (fun p hp => by
    rw [List.mem_filter, mem_upperPairs] at hp
    exact ⟨hp.1, by simpa using hp.2⟩)]
  simp only [List.mem_filter, mem_upperPairs, bne_iff_ne, ne_eq]
  have := hwf.symm i j
  rcases lt_trichotomy i j with h | h | h
  · by_cases h0 : G.g i j = .null <;> simp [h, h.asymm, h0]
  · subst h; simp [hloop]
  · by_cases h0 : G.g i j = .null
    · simp [h0]
    · have : ¬ G.g j i = .null := fun e => h0 (this.2 e)
      simp [h, this]

theorem C50_histories_partial {ws : Char → Bool} (hw : SpaceLike ws) {names : List (List Char)} (hg : GoodNames ws names)
    (hist : List (Op names.length)) (hs : (run hist).Simple) (hloop : ∀ o ∈ hist, o.ends.1 ≠ o.ends.2)
    (hct : ∀ i j, i < j → ¬ ((run hist).g i j = .circle ∧ (run hist).g j i = .tail)) :
    ∃ H : GG names.length, read ws (graphString names (nameOf names) (run hist)) = some ⟨names, H⟩ ∧
      ∀ i j, H.g i j = (run hist).g i j :=
  C50_roundtrip_partial hw hg _ (run_wf hist) hs (fun i => by
    have := fold_diag hist (GG.empty names.length) hloop i
    simpa [run] using this) hct

/-- A concrete white-space predicate and concrete names meet the hypotheses. -/
def exWs (c : Char) : Bool := c == ' ' || c == '\n' || c == '\t'
def exNames : List (List Char) := ["X1".toList, "X2".toList, "X3".toList]

instance : NeZero exNames.length := ⟨by decide⟩

theorem exWs_spaceLike : SpaceLike exWs := ⟨by decide, by decide, by decide⟩
theorem exNames_good : GoodNames exWs exNames := ⟨by decide, by decide, by decide, by decide, by decide, by decide⟩

/-- non-vacuity of C50: `X1 o→ X2`, `X2 ↔ X3`, `X3 o-o X1`. -/
example : ∃ H : GG exNames.length, read exWs (graphString exNames (nameOf exNames)
      (run [.addEdge 0 1 .circle .arrow, .addEdge 1 2 .arrow .arrow, .addEdge 2 0 .circle .circle])) = some ⟨exNames, H⟩ ∧
    H.g 0 1 = .circle ∧ H.g 1 0 = .arrow ∧ H.g 2 1 = .arrow := by
  obtain ⟨H, h1, h2⟩ := C50_histories_partial exWs_spaceLike exNames_good
    [.addEdge 0 1 .circle .arrow, .addEdge 1 2 .arrow .arrow, .addEdge 2 0 .circle .circle]
    (by unfold GG.Simple; decide) (by decide) (by decide)
  exact ⟨H, h1, by rw [h2]; decide, by rw [h2]; decide, by rw [h2]; decide⟩

/-- **C50 violated** by circle–tail edges: a graph holding `X1 o-- X2` is written and read back without any edge. -/
theorem C50_circle_tail_violated : ∃ G : GG exNames.length, G = run [.addEdge 1 0 .tail .circle] ∧ G.g 0 1 = .circle ∧ G.g 1 0 = .tail ∧
    ∃ H : GG exNames.length, read exWs (graphString exNames (nameOf exNames) G) = some ⟨exNames, H⟩ ∧ ∀ i j, H.g i j = .null := by
  refine ⟨_, rfl, by decide, by decide, ?_⟩
  refine ⟨_, by rw [read, fold_graphString exWs_spaceLike exNames_good (name := nameOf exNames) (fun i => List.getElem_mem _) _ (by decide)]; rfl, ?_⟩
  decide

/-- **C50 violated** by the graph without nodes: its text reads back as a graph with one node called `Graph Edges:`. -/
theorem C50_empty_violated : ∃ H : GG 1, read exWs (graphString [] (fun i : Fin 0 => i.elim0) (GG.empty 0)) =
    some ⟨["Graph Edges:".toList], H⟩ :=
  ⟨_, rfl⟩

end CL.Txt
