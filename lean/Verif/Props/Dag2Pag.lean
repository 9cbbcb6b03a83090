import Verif.Proofs.Dag2Pag
import Verif.Props.Cpdag
import Verif.Props.FciSound

/-!
# C70: `dag2pag` returns the partial ancestral graph of a DAG with latent and selection variables
-/
namespace CL
open GG Spec
variable {N n : Nat}

/-- networkx's `is_d_separator` is right about d-separation in acyclic graphs. -/
def NxOk (nx : (Fin N → Fin N → Bool) → Fin N → Fin N → List (Fin N) → Bool) : Prop :=
  ∀ (e : Fin N → Fin N → Bool) (u v : Fin N) (Z : List (Fin N)), Acyclic (fun a b => e a b = true) → u ≠ v → u ∉ Z → v ∉ Z →
    (nx e u v Z = true ↔ DSep (fun a b => e a b = true) {w | w ∈ Z} u v)

/-- A legal call: the first argument is a DAG, `obs` lists different nodes none of which is a selection variable (the nodes that are neither
listed nor selection variables are the latent ones), networkx is right, sets are iterated in some order. -/
structure PagInput.Ok (I : PagInput N n) : Prop where
  dag : I.dag.IsDag
  inj : Function.Injective I.obs
  sel : ∀ i, I.obs i ∉ I.sel
  nx : NxOk I.nxDsep
  perm : ∀ l, (I.setOrder l).Perm l

/-- The selection variables as a set. -/
def PagInput.Sel (I : PagInput N n) : Set (Fin N) := {v | v ∈ I.sel}

namespace Pag
open Fci

theorem edge_of_arrow {G : GG N} (h : G.IsDag) {u v : Fin N} (ha : G.Arrow u v) :
    G.getEdge u v = some ⟨u, v, .tail, .arrow, .tail, .arrow⟩ ∧ G.getEdge v u = some ⟨u, v, .tail, .arrow, .tail, .arrow⟩ := by
  have h1 := ha.1
  have h2 := ha.2
  simp [getEdge, h1, h2, mkEdge, pointingLeft]

theorem edges_iff {G : GG N} (h : G.IsDag) (u v : Fin N) : (digraph G u v = true ↔ G.Arrow u v) ∧ (trueDag G u v = true ↔ G.Arrow u v) := by
  have hs : (List.finRange N).Pairwise (· < ·) := List.pairwise_lt_finRange N
  have key : ∀ f : Edge N → Bool, (∀ a b, f ⟨a, b, .tail, .arrow, .tail, .arrow⟩ = decide (a = u ∧ b = v)) →
      (((pairsOf (List.finRange N)).any fun p => (G.getEdge p.1 p.2).elim false f) = true ↔ G.Arrow u v) := by
    intro f hf
    rw [List.any_eq_true]
    constructor
    · rintro ⟨⟨a, b⟩, -, hp⟩
      dsimp only at hp
      by_cases hn : G.g a b = .null
      · simp [getEdge, hn] at hp
      · rcases h.directed a b hn with q | q
        · rw [(edge_of_arrow h q).1, Option.elim_some, hf] at hp
          simp only [decide_eq_true_eq] at hp
          exact hp.1 ▸ hp.2 ▸ q
        · rw [(edge_of_arrow h q).2, Option.elim_some, hf] at hp
          simp only [decide_eq_true_eq] at hp
          exact hp.1 ▸ hp.2 ▸ q
    · intro ha
      have hne : u ≠ v := by rintro rfl; exact h.acyclic u (.single ha)
      obtain ⟨e1, e2⟩ := edge_of_arrow h ha
      rcases lt_or_gt_of_ne hne with q | q
      · exact ⟨(u, v), (mem_pairsOf_sorted hs).2 ⟨List.mem_finRange _, List.mem_finRange _, q⟩, by rw [e1, Option.elim_some, hf]; simp⟩
      · exact ⟨(v, u), (mem_pairsOf_sorted hs).2 ⟨List.mem_finRange _, List.mem_finRange _, q⟩, by rw [e2, Option.elim_some, hf]; simp⟩
  exact ⟨key _ fun a b => by simp, key _ fun a b => by simp⟩

theorem digraph_eq {G : GG N} (h : G.IsDag) : (fun a b => digraph G a b = true) = G.Arrow := by
  funext u v; exact propext (edges_iff h u v).1

theorem trueDag_eq {G : GG N} (h : G.IsDag) : (fun a b => trueDag G a b = true) = G.Arrow := by
  funext u v; exact propext (edges_iff h u v).2

theorem hit_iff {I : PagInput N n} (h : I.Ok) {x y : Fin n} (hxy : x ≠ y) (Z : List (Fin n)) :
    Hit I x y Z ↔ SepBy I.dag.Arrow I.obs I.Sel x y {v | v ∈ Z} := by
  unfold Hit SepBy
  refine and_congr_right fun hx => and_congr_right fun hy => ?_
  have hnot : ∀ w, w ∉ Z → I.obs w ∉ Z.map I.obs ++ I.sel := by
    intro w hw hm
    rcases List.mem_append.1 hm with q | q
    · obtain ⟨v, hv, e⟩ := List.mem_map.1 q
      exact hw (h.inj e ▸ hv)
    · exact h.sel w q
  have := h.nx (digraph I.dag) (I.obs x) (I.obs y) (Z.map I.obs ++ I.sel) (by rw [digraph_eq h.dag]; exact h.dag.acyclic)
    (fun e => hxy (h.inj e)) (hnot x hx) (hnot y hy)
  rw [this, digraph_eq h.dag]
  have e : {w | w ∈ Z.map I.obs ++ I.sel} = I.obs '' {v | v ∈ Z} ∪ I.Sel := by
    ext w; simp [PagInput.Sel]
  rw [e]

/-- A separating set can be written as one of the conditioning sets that are tried. -/
theorem exists_combo {x y : Fin n} (hxy : x ≠ y) (S : Set (Fin n)) (hx : x ∉ S) (hy : y ∉ S) :
    ∃ l, l < n - 1 ∧ ∃ Z ∈ combos (List.finRange n) l, {v | v ∈ Z} = S := by
  classical
  refine ⟨_, ?_, (List.finRange n).filter (· ∈ S), (combos_mem _ _ _).2 ⟨List.filter_sublist, rfl⟩, by ext; simp⟩
  have h1 : (x :: y :: (List.finRange n).filter (· ∈ S)).Nodup := by
    simp only [List.nodup_cons, List.mem_cons, List.mem_filter, List.mem_finRange, true_and, decide_eq_true_eq, not_or]
    exact ⟨⟨hxy, hx⟩, hy, (List.nodup_finRange n).filter _⟩
  have h2 := (h1.subperm (l₂ := List.finRange n) fun a _ => List.mem_finRange a).length_le
  simp at h2
  omega

theorem skeleton_null {I : PagInput N n} (h : I.Ok) {x y : Fin n} (hxy : x ≠ y) :
    (skeleton I).1.g x y = .null ↔ Separable I.dag.Arrow I.obs I.Sel x y := by
  obtain ⟨hi, hall⟩ := skeleton_spec I
  have key : ∀ x y, x < y → ((skeleton I).1.g x y = .null ↔ Separable I.dag.Arrow I.obs I.Sel x y) := by
    intro x y hlt
    have hne := ne_of_lt hlt
    constructor
    · intro h0
      obtain ⟨T, hT⟩ := hi.total x y hne
      obtain ⟨Z, hZ, -⟩ := hi.sep x y T hlt hT h0
      exact ⟨_, (hit_iff h hne Z).1 hZ⟩
    · rintro ⟨S, hS⟩
      by_contra h0
      obtain ⟨l, hl, Z, hZ, e⟩ := exists_combo hne S hS.1 hS.2.1
      exact hall x y hlt h0 l hl Z hZ ((hit_iff h hne Z).2 (e ▸ hS))
  rcases lt_or_gt_of_ne hxy with q | q
  · exact key x y q
  · rw [hi.circ.symm, key y x q]
    exact ⟨separable_symm, separable_symm⟩

/-! ### The rule loop -/

theorem round_keep {ev : FciEnv n} {ss : SSet n} {G : GG n} (h : G.Pag) : StepK (G, false) (round ev ss G) := by
  unfold round
  have s2 := (r1r2_step (k := ev.k) (st := (G, false)) h)
  have s3 := (s2.trans (r3_step (k := ev.k) (ss := ss) (s2.ref.pag h))).toK
  have s4 := s3.trans (r4_keep (env := ev) (ss := ss) (s3.keep.pag h))
  have s5 := s4.trans (r5_step (s4.keep.pag h)).toK
  have s6 := s5.trans (r6_step (s5.keep.pag h)).toStep.toK
  have s7 := s6.trans (r7_step (s6.keep.pag h)).toStep.toK
  have s8 := s7.trans (r8_step (s7.keep.pag h)).toStep.toK
  have s9 := s8.trans (r9_step (env := ev) (s8.keep.pag h)).toStep.toK
  exact s9.trans (r10_step (env := ev) (s9.keep.pag h)).toStep.toK

theorem loop_some {ev : FciEnv n} {ss : SSet n} : ∀ (f : Nat) (G : GG n), G.Pag → circles G < f →
    ∃ H, loop ev ss f G = some H ∧ Keep G H ∧ ∃ K, Keep G K ∧ K.Pag ∧ round ev ss K = (H, false)
  | 0, _, _, hf => by omega
  | f + 1, G, hG, hf => by
    unfold loop
    have hr := round_keep (ev := ev) (ss := ss) hG
    split
    · rename_i hflag
      rcases hr.flag hflag with hfl | ⟨a, b, h1, h2⟩
      · simp at hfl
      · have hlt := hr.keep.circles_lt h1 h2
        obtain ⟨H, e, hk, K, hK, hp, eK⟩ := loop_some (ev := ev) (ss := ss) f _ (hr.keep.pag hG) (by simp only at hlt; omega)
        exact ⟨H, e, hr.keep.trans hk, K, hr.keep.trans hK, hp, eK⟩
    · rename_i hflag
      refine ⟨_, rfl, hr.keep, G, Keep.rfl, hG, ?_⟩
      simp only [Bool.not_eq_true] at hflag
      exact Prod.ext (Eq.refl _) hflag

theorem dag2pag_some (I : PagInput N n) : ∃ H, dag2pag I = some H ∧ Keep (colliders (skeleton I)) H ∧ H.Pag := by
  have hc := colliders_spec (skeleton_spec I).1.circ (skeleton I).2
  obtain ⟨H, e, hk, -⟩ := loop_some (ev := env I) (ss := asSeen (skeleton I).2) (n * n + 1) _ hc.pag
    (Nat.lt_succ_of_le (circles_le _))
  exact ⟨H, e, hk, hk.pag hc.pag⟩

end Pag
open Fci Pag

/-- **C70 (termination).** `dag2pag` returns, whatever the graph, the node lists, the order of the sets and the answers of networkx. -/
theorem C70_returns (I : PagInput N n) : ∃ H, dag2pag I = some H := by
  obtain ⟨H, e, -⟩ := dag2pag_some I
  exact ⟨H, e⟩

/-- **C70 (adjacencies are exact).** In the returned graph two observed variables are adjacent exactly when no set of other observed variables
d-separates them given the selection variables. -/
theorem C70_adjacent_iff {I : PagInput N n} (h : I.Ok) {H : GG n} (hH : dag2pag I = some H) {x y : Fin n} (hxy : x ≠ y) :
    H.isAdj x y = true ↔ ¬ Separable I.dag.Arrow I.obs I.Sel x y := by
  obtain ⟨H', e, hk, hp⟩ := dag2pag_some I
  rw [e] at hH
  cases hH
  have hc := colliders_spec (Pag.skeleton_spec I).1.circ (skeleton I).2
  rw [isAdj_iff hp, ne_eq, hk.null, hc.null, skeleton_null h hxy]

namespace Pag

/-- The separating sets that were recorded for the missing edges, as sets of indices (what R3 and R4 expect to be given). -/
def indexTable (I : PagInput N n) : SSet n := fun x y => if (skeleton I).1.isAdj x y then none else (skeleton I).2 x y

/-- The CI test R4 should be given: the selection variables are conditioned on, as in `DAG2PAG.py:68`. -/
def rightTest (I : PagInput N n) : CI n := fun x y S => I.nxDsep (digraph I.dag) (I.obs x) (I.obs y) (S.map I.obs ++ I.sel)

/-- The graphs in which the loop starts a round. -/
inductive Reached (I : PagInput N n) : GG n → Prop
  | start : Reached I (colliders (skeleton I))
  | next {G : GG n} : Reached I G → (round (env I) (asSeen (skeleton I).2) G).2 = true → Reached I (round (env I) (asSeen (skeleton I).2) G).1

/-- `DAG2PAG.py:101-102`: a round after R3. -/
def afterR3 (I : PagInput N n) (G : GG n) : GG n × Bool := r3 (env I).k (asSeen (skeleton I).2) (r1r2 (env I).k (G, false))

/-- `DAG2PAG.py:103-105`: a round after R4. -/
def afterR4 (I : PagInput N n) (G : GG n) : GG n × Bool := r4 (env I) (asSeen (skeleton I).2) (afterR3 I G)

/-- `DAG2PAG.py:106-109`: a round after R8. -/
def afterR8 (I : PagInput N n) (G : GG n) : GG n × Bool := r8 (r7 (r6 (r5 (afterR4 I G))))

/-- In this round R4 does what it does with the right test and a table of indices, and the tails put by R5, R9, R10 satisfy the premises of
the published rules. -/
structure Justified (I : PagInput N n) (G : GG n) : Prop where
  r4 : afterR4 I G = r4 { env I with ind := rightTest I } (indexTable I) (afterR3 I G)
  tails5 : NewTails (fun G x _ => G.PremiseR5 x) (afterR4 I G).1 (r5 (afterR4 I G)).1
  tails9 : NewTails GG.PremiseR9 (afterR8 I G).1 (r9 (env I) (afterR8 I G)).1
  tails10 : NewTails GG.PremiseR10 (r9 (env I) (afterR8 I G)).1 (r10 (env I) (r9 (env I) (afterR8 I G))).1

theorem oracle {I : PagInput N n} (h : I.Ok) : OracleFor I.dag.Arrow I.obs I.Sel (rightTest I) := by
  intro x y S hxy hx hy
  have := hit_iff h hxy S
  unfold Hit SepBy at this
  simp only [hx, hy, not_false_eq_true, true_and, Set.mem_setOf_eq] at this
  exact this

theorem entry {I : PagInput N n} (h : I.Ok) : ∀ x y T, x ≠ y → indexTable I x y = some T → EntryOk I.dag.Arrow I.obs I.Sel x y T := by
  obtain ⟨hi, -⟩ := skeleton_spec I
  have key : ∀ x y T, x < y → (skeleton I).1.g x y = .null → (skeleton I).2 x y = some T → EntryOk I.dag.Arrow I.obs I.Sel x y T := by
    intro x y T hlt h0 hT
    have hne := ne_of_lt hlt
    constructor
    · intro z hz
      obtain ⟨Z, hzZ, hZ⟩ := hi.mem x y T hlt hT z hz
      exact ⟨_, hzZ, (hit_iff h hne Z).1 hZ⟩
    · obtain ⟨Z, hZ, hZT⟩ := hi.sep x y T hlt hT h0
      exact ⟨_, hZT, (hit_iff h hne Z).1 hZ⟩
  intro x y T hxy hT
  unfold indexTable at hT
  split at hT
  · cases hT
  · rename_i hadj
    rw [isAdj_iff hi.circ.pag, ne_eq, not_not] at hadj
    rcases lt_or_gt_of_ne hxy with q | q
    · exact key x y T q hadj hT
    · exact (key y x T q (by rw [hi.circ.symm]; exact hadj) (by rw [hi.tsymm]; exact hT)).symm

theorem start_right {I : PagInput N n} (h : I.Ok) : Right I.dag.Arrow I.obs I.Sel (colliders (skeleton I)) := by
  obtain ⟨hi, -⟩ := skeleton_spec I
  have hc := colliders_spec hi.circ (skeleton I).2
  have hK := hi.circ.pag
  have hE := entry h
  have hins : ∀ a b, (skeleton I).1.g a b ≠ .null → ¬ Separable I.dag.Arrow I.obs I.Sel a b := by
    intro a b hab hs
    exact hab ((skeleton_null h (ne_of_adj hK hab)).2 hs)
  have htab : ∀ a c, a ≠ c → (skeleton I).1.g a c = .null → ∃ T, (skeleton I).2 a c = some T ∧ EntryOk I.dag.Arrow I.obs I.Sel a c T := by
    intro a c hac h0
    obtain ⟨T, hT⟩ := hi.total a c hac
    refine ⟨T, hT, hE a c T hac ?_⟩
    unfold indexTable
    rw [if_neg, hT]
    rw [isAdj_iff hK]; exact fun h => h h0
  have key : ∀ a b c, a ≠ c → Col (skeleton I).1 (skeleton I).2 a b c → ¬ Ca I.dag.Arrow I.obs I.Sel b a ∧ ¬ Ca I.dag.Arrow I.obs I.Sel b c := by
    rintro a b c hac ⟨h1, h2, h3, h4⟩
    obtain ⟨T, hT, -, S, hST, hS⟩ := htab a c hac h3
    rw [hT, Option.getD_some] at h4
    exact triple_out h.dag.acyclic h.inj h.sel (ne_of_adj hK h1) (ne_of_adj hK h2).symm (hins a b h1) (hins b c (adj_symm hK h2))
      (fun hbS => h4 (hST b hbS)) hS.2.2
  refine ⟨hc.pag, fun a b e => ?_, fun a b e => absurd e (hc.noTail b a), fun a b e => hins a b (fun h0 => e ((hc.null a b).2 h0)), ?_⟩
  · obtain ⟨c, ⟨hlt, hh⟩ | ⟨hlt, hh⟩⟩ := (hc.arrow a b).1 e
    · exact (key a b c (ne_of_lt hlt) hh).1
    · exact (key c b a (ne_of_lt hlt) hh).2
  · have main : ∀ a b c, a < c → (skeleton I).1.g a b ≠ .null → (skeleton I).1.g c b ≠ .null → (skeleton I).1.g a c = .null →
        ¬ Ca I.dag.Arrow I.obs I.Sel b a → ¬ Ca I.dag.Arrow I.obs I.Sel b c → Col (skeleton I).1 (skeleton I).2 a b c := by
      intro a b c hlt h1 h2 h3 h4 h5
      obtain ⟨T, hT, hm, -⟩ := htab a c (ne_of_lt hlt) h3
      refine ⟨h1, h2, h3, fun hbT => ?_⟩
      rw [hT, Option.getD_some] at hbT
      obtain ⟨S, hbS, hS⟩ := hm b hbT
      rcases triple_in h.dag.acyclic h.inj h.sel (ne_of_adj hK h1) (ne_of_adj hK h2).symm (hins a b h1) (hins b c (adj_symm hK h2)) hbS hS.2.2 with q | q
      · exact h4 q
      · exact h5 q
    intro a b c hne h1 h2 h3 h4 h5
    have h1' : (skeleton I).1.g a b ≠ .null := fun h0 => h1 ((hc.null a b).2 h0)
    have h2' : (skeleton I).1.g c b ≠ .null := fun h0 => h2 ((hc.null c b).2 h0)
    have h3' := (hc.null a c).1 h3
    rcases lt_or_gt_of_ne hne with hlt | hlt
    · have q := main a b c hlt h1' h2' h3' h4 h5
      exact ⟨(hc.arrow a b).2 ⟨c, Or.inl ⟨hlt, q⟩⟩, (hc.arrow c b).2 ⟨a, Or.inr ⟨hlt, q⟩⟩⟩
    · have q := main c b a hlt h2' h1' ((hK.symm a c).1 h3') h5 h4
      exact ⟨(hc.arrow a b).2 ⟨c, Or.inr ⟨hlt, q⟩⟩, (hc.arrow c b).2 ⟨a, Or.inl ⟨hlt, q⟩⟩⟩

theorem round_right {I : PagInput N n} (h : I.Ok) {G : GG n} (hG : Right I.dag.Arrow I.obs I.Sel G) (hj : Justified I G) :
    Right I.dag.Arrow I.obs I.Sel (round (env I) (asSeen (skeleton I).2) G).1 := by
  have hac := h.dag.acyclic
  have ho := h.inj
  have h3 : Right I.dag.Arrow I.obs I.Sel (afterR3 I G).1 := r3_right hac ho (r1r2_right hac ho (st := (G, false)) hG)
  have h4 : Right I.dag.Arrow I.obs I.Sel (afterR4 I G).1 := by
    rw [hj.r4]
    exact r4_right (env := { env I with ind := rightTest I }) hac ho h.sel (oracle h) (entry h) h3
  have hnt : ∀ {P : GG n → Fin n → Fin n → Prop} {K L : GG n}, K.Pag → L.Pag → NewTails P K L → ∀ x y, K.g x y = .circle → L.g x y = .tail → P K x y :=
    fun hK hL hN x y e1 e2 => hN x y ((getEndpoint_iff hK).2 ⟨by simp, e1⟩) ((getEndpoint_iff hL).2 ⟨by simp, e2⟩)
  have s5 := r5_step (st := afterR4 I G) h4.pag
  have h5 : Right I.dag.Arrow I.obs I.Sel (r5 (afterR4 I G)).1 := h4.newTails s5.ref (r5_tails h4.pag)
    fun x y e1 e2 => .of_sel (premiseR5_causes hac ho h4 (hnt h4.pag (s5.ref.pag h4.pag) hj.tails5 x y e1 e2))
  have h8 : Right I.dag.Arrow I.obs I.Sel (afterR8 I G).1 := r8_right (r7_right hac ho (r6_right hac ho h5))
  have s9 := r9_step (env := env I) (st := afterR8 I G) h8.pag
  have h9 : Right I.dag.Arrow I.obs I.Sel (r9 (env I) (afterR8 I G)).1 := h8.newTails s9.ref s9.tails
    fun x y e1 e2 => premiseR9_causes hac ho h8 e1 (hnt h8.pag (s9.ref.pag h8.pag) hj.tails9 x y e1 e2)
  have s10 := r10_step (env := env I) (st := r9 (env I) (afterR8 I G)) h9.pag
  exact h9.newTails s10.ref s10.tails
    fun x y e1 e2 => premiseR10_causes hac ho h9 (hnt h9.pag (s10.ref.pag h9.pag) hj.tails10 x y e1 e2)

theorem loop_right {I : PagInput N n} (h : I.Ok) (hj : ∀ K, Reached I K → Justified I K) : ∀ (f : Nat) (G H : GG n),
    Reached I G → Right I.dag.Arrow I.obs I.Sel G → loop (env I) (asSeen (skeleton I).2) f G = some H → Right I.dag.Arrow I.obs I.Sel H
  | 0, _, _, _, _, e => by simp [loop] at e
  | f + 1, G, H, hr, hG, e => by
    have h' := round_right h hG (hj G hr)
    unfold loop at e
    split at e
    · rename_i hfl
      exact loop_right h hj f _ H (.next hr hfl) h' e
    · cases e; exact h'

end Pag

/-- **C70 (marks; partial).** Latent and selection variables allowed: every arrowhead and every tail of the returned graph is true of the DAG, if in
every round R4 decides as it would with the separating sets given by index and the selection variables conditioned on, and R5, R9 and R10 put tails
only where the published rules would. Missing: these hypotheses can fail (`C70_r4_table_violated`, `C70_r4_selection_violated`, `C69_r5_violated`,
`C69_r9_violated`). -/
theorem C70_marks_true_partial {I : PagInput N n} (h : I.Ok) (hj : ∀ K, Pag.Reached I K → Pag.Justified I K) :
    ∃ H, dag2pag I = some H ∧ H.MarksTrue I.dag.Arrow I.obs I.Sel := by
  obtain ⟨H, e, -, hp⟩ := dag2pag_some I
  refine ⟨H, e, ?_⟩
  have hR := Pag.loop_right h hj _ _ H .start (Pag.start_right h) e
  rw [marksTrue_iff hp]
  exact fun a b => ⟨hR.arrow a b, hR.tail a b⟩

/-! ### Runs on concrete DAGs -/

theorem exists_rank {e : Fin N → Fin N → Bool} (h : Acyclic (fun a b => e a b = true)) :
    ∃ r : Fin N → Nat, (∀ a b, e a b = true → r a < r b) ∧ ∀ a, r a < N := by
  classical
  have hs : ∀ a, (Finset.univ.filter fun u => Relation.TransGen (fun a b => e a b = true) u a).card < N := by
    intro a
    have := Finset.card_lt_card (s := Finset.univ.filter fun u => Relation.TransGen (fun a b => e a b = true) u a) (t := Finset.univ)
      (Finset.ssubset_iff_subset_ne.2 ⟨Finset.subset_univ _, fun q => h a (by
        have : a ∈ Finset.univ.filter fun u => Relation.TransGen (fun a b => e a b = true) u a := by rw [q]; simp
        simpa using this)⟩)
    simpa using this
  refine ⟨fun a => (Finset.univ.filter fun u => Relation.TransGen (fun a b => e a b = true) u a).card, fun a b hab => ?_, hs⟩
  refine Finset.card_lt_card (Finset.ssubset_iff_subset_ne.2 ⟨fun u hu => ?_, fun q => h a ?_⟩)
  · simp only [Finset.mem_filter, Finset.mem_univ, true_and] at hu ⊢
    exact hu.tail hab
  · have : a ∈ Finset.univ.filter fun u => Relation.TransGen (fun a b => e a b = true) u a := by
      rw [q]; simp; exact .single hab
    simpa using this

/-- An `is_d_separator` that is right (for the examples). -/
def nxOf (e : Fin N → Fin N → Bool) (u v : Fin N) (Z : List (Fin N)) : Bool := !dconnB e (fun w => Z.contains w) u v

theorem nxOf_ok : NxOk (nxOf (N := N)) := by
  intro e u v Z hac _ _ _
  obtain ⟨r, hr, hm⟩ := exists_rank hac
  rw [nxOf, Bool.not_eq_true', Bool.eq_false_iff, ne_eq, dconnB_iff hr hm, DSep]
  simp

/-- The DAG with the edges `e`. -/
def dagOf (e : Fin N → Fin N → Bool) : GG N := ⟨fun a b => if e a b then .tail else if e b a then .arrow else .null, fun _ _ => false⟩

theorem dagOf_arrow {e : Fin N → Fin N → Bool} (r : Fin N → Nat) (hr : ∀ a b, e a b = true → r a < r b) :
    (dagOf e).Arrow = fun a b => e a b = true := by
  funext a b
  refine propext ?_
  unfold Arrow dagOf
  have h1 := hr a b
  have h2 := hr b a
  constructor
  · rintro ⟨p, q⟩
    grind
  · intro p
    grind

theorem dagOf_isDag {e : Fin N → Fin N → Bool} (r : Fin N → Nat) (hr : ∀ a b, e a b = true → r a < r b) : (dagOf e).IsDag := by
  refine ⟨fun a b h => ?_, ?_⟩
  · rw [dagOf_arrow r hr]
    unfold dagOf at h
    grind
  · rw [dagOf_arrow r hr]
    have hmono : ∀ a b, Relation.TransGen (fun a b => e a b = true) a b → r a < r b := by
      intro a b h
      induction h with
      | single h => exact hr _ _ h
      | tail _ h ih => exact ih.trans (hr _ _ h)
    exact fun x hx => absurd (hmono x x hx) (lt_irrefl _)


/-- `loop` as it would be with the right test and the right table. -/
def Pag.rightLoop (I : PagInput N n) : Option (GG n) :=
  loop { env I with ind := rightTest I } (indexTable I) (n * n + 1) (colliders (skeleton I))

/-- `0 → 1 → 3`, `2 → 3`, `0 → 4 → 3`, and `5 → 1`, `5 → 2` with 5 latent -/
def tabE : Fin 6 → Fin 6 → Bool := fun a b => (a == 0 && b == 1) || (a == 5 && b == 1) || (a == 5 && b == 2) || (a == 1 && b == 3) ||
  (a == 2 && b == 3) || (a == 0 && b == 4) || (a == 4 && b == 3)

def tabRank : Fin 6 → Nat := fun v => if v = 0 ∨ v = 5 then 0 else if v = 3 then 2 else 1

def tabInput : PagInput 6 5 := ⟨dagOf tabE, Fin.castSucc, [], nxOf, id⟩

theorem tab_ok : tabInput.Ok :=
  ⟨dagOf_isDag tabRank (by decide), Fin.castSucc_injective 5, by simp [tabInput], nxOf_ok, fun _ => .refl _⟩

/-- **C70 violated (R4's table).** The call is legal, and the returned graph has an arrowhead at 2 on the edge `2 → 3` of the DAG: the separating sets
hold node objects, R4 looks for an index, does not find it and takes 2 for a collider. With a table of indices the mark would be a tail. -/
theorem C70_r4_table_violated : tabInput.Ok ∧ tabInput.dag.Arrow 2 3 ∧
    (∃ H, dag2pag tabInput = some H ∧ H.getEndpoint 3 2 = some .arrow ∧ ¬ H.MarksTrue tabInput.dag.Arrow tabInput.obs tabInput.Sel) ∧
    ∃ H, rightLoop tabInput = some H ∧ H.getEndpoint 3 2 = some .tail := by
  refine ⟨tab_ok, by decide, ?_, elim_decide (P := fun H : GG 5 => H.getEndpoint 3 2 = some .tail) (by decide +kernel)⟩
  obtain ⟨H, e, h⟩ := elim_decide (o := dag2pag tabInput) (P := fun H : GG 5 => H.getEndpoint 3 2 = some .arrow) (by decide +kernel)
  refine ⟨H, e, h, fun hM => (hM 3 2).1 h ⟨3, Or.inl rfl, .single ?_⟩⟩
  decide

/-- `0 → 1 → 3`, latent `4 → 1, 2`, `5 → 2, 7`, `6 → 7, 3`, selection 7 -/
def selE : Fin 8 → Fin 8 → Bool := fun a b => (a == 0 && b == 1) || (a == 4 && b == 1) || (a == 4 && b == 2) || (a == 5 && b == 2) ||
  (a == 5 && b == 7) || (a == 6 && b == 7) || (a == 6 && b == 3) || (a == 1 && b == 3)

def selRank : Fin 8 → Nat := fun v => if v = 0 ∨ v = 4 ∨ v = 5 ∨ v = 6 then 0 else if v = 3 then 2 else 1

def selInput : PagInput 8 4 := ⟨dagOf selE, Fin.castLE (by decide), [7], nxOf, id⟩

theorem sel_ok : selInput.Ok :=
  ⟨dagOf_isDag selRank (by decide), Fin.castLE_injective (by decide), by decide, nxOf_ok, fun _ => .refl _⟩

/-- **C70 violated (R4's test).** The call is legal, and the returned graph has `2 → 3` although 2 is no ancestor of 3 or of the selection variable:
the test handed to R4 does not condition on the selection variable. With the right test the mark at 2 would be an arrowhead. -/
theorem C70_r4_selection_violated : selInput.Ok ∧
    (∃ H, dag2pag selInput = some H ∧ H.getEndpoint 3 2 = some .tail ∧ ¬ H.MarksTrue selInput.dag.Arrow selInput.obs selInput.Sel) ∧
    ∃ H, rightLoop selInput = some H ∧ H.getEndpoint 3 2 = some .arrow := by
  refine ⟨sel_ok, ?_, elim_decide (P := fun H : GG 4 => H.getEndpoint 3 2 = some .arrow) (by decide +kernel)⟩
  obtain ⟨H, e, h⟩ := elim_decide (o := dag2pag selInput) (P := fun H : GG 4 => H.getEndpoint 3 2 = some .tail) (by decide +kernel)
  refine ⟨H, e, h, fun hM => ?_⟩
  obtain ⟨z, hz, hp⟩ := (hM 3 2).2 h
  rw [show selInput.dag.Arrow = fun a b => selE a b = true from dagOf_arrow selRank (by decide)] at hp
  have hz' : z = 3 ∨ z = 7 := by
    rcases hz with rfl | hz
    · exact Or.inl rfl
    · exact Or.inr (by simpa [PagInput.Sel, selInput] using hz)
  rcases hz' with rfl | rfl
  · have := (reachB_complete (e := selE) (r := selRank) (by decide) hp).2 8 (by decide)
    revert this; decide
  · have := (reachB_complete (e := selE) (r := selRank) (by decide) hp).2 8 (by decide)
    revert this; decide

namespace Pag

theorem r3Step_asSeen (k : Know n) (ss : SSet n) (b d : Fin n) (st : GG n × Bool) (p : Fin n × Fin n) : r3Step k (asSeen ss) b d st p = st := by
  have : isNoncoll (asSeen ss) p.1 d p.2 = false := by
    unfold isNoncoll asSeen
    cases ss p.1 p.2 <;> simp
  unfold r3Step
  simp [this]

theorem r3_asSeen (k : Know n) (ss : SSet n) (st : GG n × Bool) : r3 k (asSeen ss) st = st := by
  have hid : ∀ {α : Type} (l : List α) (f : GG n × Bool → α → GG n × Bool), (∀ s a, f s a = s) → ∀ s, l.foldl f s = s := by
    intro α l f hf s
    induction l with
    | nil => rfl
    | cons a l ih => rw [List.foldl_cons, hf, ih]
  unfold r3
  refine hid _ _ (fun s a => ?_) st
  unfold r3Node
  exact hid _ _ (fun s d => hid _ _ (fun s p => r3Step_asSeen k ss a d s p) s) s

end Pag

/-- `0 → 1, 2, 3`, `1 → 3 ← 2` -/
def kiteE : Fin 4 → Fin 4 → Bool := fun a b => (a == 0 && b != 0) || (a == 1 && b == 3) || (a == 2 && b == 3)

def kiteInput : PagInput 4 4 := ⟨dagOf kiteE, id, [], nxOf, id⟩

theorem kite_ok : kiteInput.Ok :=
  ⟨dagOf_isDag (fun v => if v = 0 then 0 else if v = 3 then 2 else 1) (by decide), Function.injective_id, by simp [kiteInput], nxOf_ok, fun _ => .refl _⟩

/-- **C70 violated (R3).** Rule R3 changes nothing in `dag2pag`, on any input; without latent or selection variables, on `0 → 1, 2, 3`, `1 → 3 ← 2`,
the returned graph keeps a circle at 3 on the edge `0 – 3`, where `fci` with the d-separation answers of the same DAG puts the arrowhead. -/
theorem C70_r3_violated :
    (∀ (N n : Nat) (I : PagInput N n) (st : GG n × Bool), r3 (env I).k (asSeen (skeleton I).2) st = st) ∧
    kiteInput.Ok ∧ (∃ H, dag2pag kiteInput = some H ∧ H.getEndpoint 0 3 = some .circle) ∧
    ∃ H, fci (exEnv (oracleOf kiteE id) Know.none) none = some H ∧ H.getEndpoint 0 3 = some .arrow :=
  ⟨fun _ _ _ st => r3_asSeen _ _ st, kite_ok, elim_decide (P := fun H : GG 4 => H.getEndpoint 0 3 = some .circle) (by decide +kernel),
    elim_decide (P := fun H : GG 4 => H.getEndpoint 0 3 = some .arrow) (by decide +kernel)⟩

/-- The loop ends after the second round, R4 does what it does with the right test and table, and R5, R9, R10 put no tail. -/
def Pag.TwoPlainRounds (I : PagInput N n) : Prop :=
  (round (env I) (asSeen (skeleton I).2) (round (env I) (asSeen (skeleton I).2) (colliders (skeleton I))).1).2 = false ∧
  ∀ K ∈ [colliders (skeleton I), (round (env I) (asSeen (skeleton I).2) (colliders (skeleton I))).1],
    ((afterR4 I K).1.g = (Fci.r4 { env I with ind := rightTest I } (indexTable I) (afterR3 I K)).1.g ∧
      (afterR4 I K).1.dp = (Fci.r4 { env I with ind := rightTest I } (indexTable I) (afterR3 I K)).1.dp ∧
      (afterR4 I K).2 = (Fci.r4 { env I with ind := rightTest I } (indexTable I) (afterR3 I K)).2) ∧
    (∀ x y, (afterR4 I K).1.getEndpoint y x = some .circle → (r5 (afterR4 I K)).1.getEndpoint y x ≠ some .tail) ∧
    (∀ x y, (afterR8 I K).1.getEndpoint y x = some .circle → (r9 (env I) (afterR8 I K)).1.getEndpoint y x ≠ some .tail) ∧
    (∀ x y, (r9 (env I) (afterR8 I K)).1.getEndpoint y x = some .circle → (r10 (env I) (r9 (env I) (afterR8 I K))).1.getEndpoint y x ≠ some .tail)

instance (I : PagInput N n) : Decidable (TwoPlainRounds I) := by unfold TwoPlainRounds; infer_instance

theorem Pag.TwoPlainRounds.justified {I : PagInput N n} (h : TwoPlainRounds I) {K : GG n} (hr : Pag.Reached I K) : Pag.Justified I K := by
  have hK : K = colliders (skeleton I) ∨ K = (round (env I) (asSeen (skeleton I).2) (colliders (skeleton I))).1 := by
    induction hr with
    | start => exact Or.inl rfl
    | @next G _ hfl ih =>
      rcases ih with rfl | rfl
      · exact Or.inr rfl
      · rw [h.1] at hfl; simp at hfl
  obtain ⟨⟨a1, a2, a3⟩, b1, b2, b3⟩ := h.2 K (by simpa using hK)
  exact ⟨Prod.ext (by cases hA : (afterR4 I K).1; cases hB : (Fci.r4 { env I with ind := rightTest I } (indexTable I) (afterR3 I K)).1; simp_all) a3, fun x y h1 h2 => absurd h2 (b1 x y h1), fun x y h1 h2 => absurd h2 (b2 x y h1),
    fun x y h1 h2 => absurd h2 (b3 x y h1)⟩

def mInput : PagInput 6 5 := ⟨dagOf mE, Fin.castSucc, [], nxOf, id⟩

def mRank : Fin 6 → Nat := fun v => if v = 5 then 0 else if v = 3 ∨ v = 4 then 3 else if v = 2 then 1 else 0

theorem m_ok : mInput.Ok :=
  ⟨dagOf_isDag mRank (by decide), Fin.castSucc_injective 5, by simp [mInput], nxOf_ok, fun _ => .refl _⟩

/-- An example that meets the hypotheses of `C70_adjacent_iff` and `C70_marks_true_partial`: `0 → 2 ← 1`, `2 → 3 ← L → 4` with `L` latent. Among the
true marks are `2 → 3` and `4 o→ 3`. -/
example : (∃ H, dag2pag mInput = some H ∧ H.MarksTrue mInput.dag.Arrow mInput.obs mInput.Sel) ∧
    (∃ H, dag2pag mInput = some H ∧ H.getEndpoint 2 3 = some .arrow ∧ H.getEndpoint 3 2 = some .tail ∧ H.getEndpoint 4 3 = some .arrow ∧
      H.getEndpoint 3 4 = some .circle) ∧
    ∃ H, dag2pag mInput = some H ∧ H.isAdj 2 3 = true ∧ H.isAdj 2 4 = false ∧ ¬ Separable mInput.dag.Arrow mInput.obs mInput.Sel 2 3 ∧
      Separable mInput.dag.Arrow mInput.obs mInput.Sel 2 4 := by
  refine ⟨C70_marks_true_partial m_ok fun K hK => ?_, elim_decide (P := fun H : GG 5 => H.getEndpoint 2 3 = some .arrow ∧
    H.getEndpoint 3 2 = some .tail ∧ H.getEndpoint 4 3 = some .arrow ∧ H.getEndpoint 3 4 = some .circle) (by decide +kernel), ?_⟩
  · exact TwoPlainRounds.justified (by decide +kernel) hK
  · obtain ⟨H, e, h1, h2⟩ := elim_decide (o := dag2pag mInput) (P := fun H : GG 5 => H.isAdj 2 3 = true ∧ H.isAdj 2 4 = false) (by decide +kernel)
    refine ⟨H, e, h1, h2, (C70_adjacent_iff m_ok e (by decide)).1 h1, ?_⟩
    by_contra hs
    rw [← C70_adjacent_iff m_ok e (by decide), h2] at hs
    simp at hs

end CL
