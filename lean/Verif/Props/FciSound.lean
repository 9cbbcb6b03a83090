import Verif.Proofs.FciTruth4
import Verif.Proofs.DSepDecide

/-!
# C69: the marks FCI puts are true of the causal graph

The CI test answers d-separation in a causal graph with latent and selection variables (`Spec/Latent.lean`).
-/
namespace CL
open GG Spec
variable {n : Nat} {V : Type}

/-- The observed variable `i` is the node `o i` of the causal graph `E`; `Sel` are the selection variables; the CI test answers
d-separation given the conditioning set and the selection. -/
structure CausalOracle (E : V → V → Prop) (o : Fin n → V) (Sel : Set V) (ind : CI n) : Prop where
  acyclic : Acyclic E
  inj : Function.Injective o
  sel : ∀ i, o i ∉ Sel
  ind : ∀ x y (S : List (Fin n)), x ≠ y → x ∉ S → y ∉ S → (ind x y S = true ↔ DSep E (o '' {v | v ∈ S} ∪ Sel) (o x) (o y))

/-- An arrowhead at `b` on `a – b` says that `b` is no ancestor of `a` (or of a selection variable), a tail says it is one. -/
def GG.MarksTrue (E : V → V → Prop) (o : Fin n → V) (Sel : Set V) (H : GG n) : Prop := ∀ a b,
  (H.getEndpoint a b = some .arrow → ¬ Causes E Sel (o b) (o a)) ∧ (H.getEndpoint a b = some .tail → Causes E Sel (o b) (o a))

/-- Neighbours along the list are adjacent without an arrowhead against its direction, and no node is adjacent to the next but one. -/
def GG.UncoveredPd (G : GG n) (l : List (Fin n)) : Prop :=
  (∀ x y, [x, y] <:+: l → G.isAdj x y = true ∧ G.getEndpoint y x ≠ some .arrow) ∧
  ∀ x y z, [x, y, z] <:+: l → x ≠ z ∧ G.isAdj x z = false

/-- The premise of rule R9 in Zhang (2008): an uncovered possibly directed path from `a` to `c` whose second node is not adjacent to `c`. -/
def GG.PremiseR9 (G : GG n) (a c : Fin n) : Prop :=
  ∃ b l, G.UncoveredPd (a :: b :: l) ∧ (b :: l).getLast? = some c ∧ b ≠ c ∧ G.isAdj b c = false

/-- The premise of rule R10: tails `b — c`, `d — c` at `b` and `d`, and uncovered possibly directed paths from `a` to `b` and to `d` that
leave `a` through two different nodes that are not adjacent. -/
def GG.PremiseR10 (G : GG n) (a c : Fin n) : Prop :=
  ∃ b d u v l1 l2, G.getEndpoint c b = some .tail ∧ G.getEndpoint c d = some .tail ∧ G.UncoveredPd (a :: u :: l1) ∧
    (u :: l1).getLast? = some b ∧ G.UncoveredPd (a :: v :: l2) ∧ (v :: l2).getLast? = some d ∧ u ≠ v ∧ G.isAdj u v = false

/-- The premise of rule R5: `x` is on a cycle of circle–circle edges without a chord between nodes two steps apart
(`s` runs round the cycle of length `m`). -/
def GG.PremiseR5 (G : GG n) (x : Fin n) : Prop :=
  ∃ (s : ℤ → Fin n) (m : ℕ), 0 < m ∧ s 0 = x ∧ (∀ i, s (i + m) = s i) ∧ ∀ i, G.getEndpoint (s i) (s (i + 1)) = some .circle ∧
    G.getEndpoint (s (i + 1)) (s i) = some .circle ∧ s i ≠ s (i + 2) ∧ G.isAdj (s i) (s (i + 2)) = false

namespace Fci
variable {E : V → V → Prop} {o : Fin n → V} {Sel : Set V}

/-- Every tail of `H` that replaced a circle of `G` satisfies `P`. -/
def NewTails (P : GG n → Fin n → Fin n → Prop) (G H : GG n) : Prop :=
  ∀ x y, G.getEndpoint y x = some .circle → H.getEndpoint y x = some .tail → P G x y

/-- `FCI.py:1093-1107`: the state of a round after R4. -/
def afterR4 (env : FciEnv n) (ss : SSet n) (first : Bool) (G : GG n) : GG n × Bool :=
  if (r3 env.k ss (r1r2 env.k (G, false))).2 || (first && env.allKinds) then r4 env ss (r3 env.k ss (r1r2 env.k (G, false)))
  else r3 env.k ss (r1r2 env.k (G, false))

/-- `FCI.py:1109-1116`: the state of a round after R8. -/
def afterR8 (env : FciEnv n) (ss : SSet n) (first : Bool) (G : GG n) : GG n × Bool := r8 (r7 (r6 (r5 (afterR4 env ss first G))))

/-- The tails that R5, R9 and R10 put in the round satisfy the premises of the published rules. -/
structure Justified (env : FciEnv n) (ss : SSet n) (first : Bool) (G : GG n) : Prop where
  tails5 : NewTails (fun G x _ => G.PremiseR5 x) (afterR4 env ss first G).1 (r5 (afterR4 env ss first G)).1
  tails9 : NewTails GG.PremiseR9 (afterR8 env ss first G).1 (r9 env (afterR8 env ss first G)).1
  tails10 : NewTails GG.PremiseR10 (r9 env (afterR8 env ss first G)).1 (r10 env (r9 env (afterR8 env ss first G))).1

/-- The states in which the main loop starts a round. -/
inductive Reached (env : FciEnv n) (ss : SSet n) (G0 : GG n) : Bool → GG n → Prop
  | start : Reached env ss G0 true G0
  | next {first : Bool} {G : GG n} : Reached env ss G0 first G → (round env ss first G).1.2 = true →
      Reached env ss G0 (round env ss first G).2 (round env ss first G).1.1

theorem round_eq (env : FciEnv n) (ss : SSet n) (first : Bool) (G : GG n) :
    (round env ss first G).1 = r10 env (r9 env (afterR8 env ss first G)) := rfl

theorem marksTrue_iff {H : GG n} (h : H.Pag) : H.MarksTrue E o Sel ↔
    ∀ a b, (H.g b a = .arrow → ¬ Ca E o Sel b a) ∧ (H.g b a = .tail → Ca E o Sel b a) := by
  unfold GG.MarksTrue
  simp [getEndpoint_iff h]

section
variable (hac : Acyclic E) (ho : Function.Injective o)
include hac ho

theorem uncovered_causes {G : GG n} (h : Right E o Sel G) : ∀ (l : List (Fin n)) (x y z : Fin n), G.UncoveredPd (x :: y :: l) →
    (y :: l).getLast? = some z → Ca E o Sel x y → Ca E o Sel x z
  | [], x, y, z, _, hl, hxy => by simp at hl; exact hl ▸ hxy
  | w :: l, x, y, z, hp, hl, hxy => by
    have hp' : G.UncoveredPd (y :: w :: l) :=
      ⟨fun a b hi => hp.1 a b (hi.trans ⟨[x], [], by simp⟩), fun a b c hi => hp.2 a b c (hi.trans ⟨[x], [], by simp⟩)⟩
    obtain ⟨hxw, hn⟩ := hp.2 x y w ⟨[], l, by simp⟩
    obtain ⟨a1, -⟩ := hp.1 x y ⟨[], w :: l, by simp⟩
    obtain ⟨a2, a3⟩ := hp.1 y w ⟨[x], l, by simp⟩
    rw [isAdj_iff h.pag] at a1 a2
    have hn' : G.g x w = .null := by
      by_contra hx; rw [(isAdj_iff h.pag).2 hx] at hn; simp at hn
    have a3' : G.g y w ≠ .arrow := fun e => a3 ((getEndpoint_iff h.pag).2 ⟨by simp, e⟩)
    rcases h.middle hac ho hxw a1 (adj_symm h.pag a2) hn' (Or.inr a3') with e | e
    · exact sel_of_mutual hac ho (ne_of_adj h.pag a1) hxy e z
    · exact hxy.trans (uncovered_causes h l y w z hp' (by simpa [List.getLast?_cons_cons] using hl) e)

theorem premiseR9_causes {G : GG n} (h : Right E o Sel G) {a c : Fin n} (hac' : G.g a c = .circle) (hp : G.PremiseR9 a c) : Ca E o Sel a c := by
  obtain ⟨b, l, hp, hl, hbc, hn⟩ := hp
  obtain ⟨a1, -⟩ := hp.1 a b ⟨[], l, by simp⟩
  rw [isAdj_iff h.pag] at a1
  have hn' : G.g b c = .null := by
    by_contra hx; rw [(isAdj_iff h.pag).2 hx] at hn; simp at hn
  rcases h.middle hac ho hbc (adj_symm h.pag a1) (adj_symm h.pag (by simp [hac'])) hn' (Or.inr (by simp [hac'])) with e | e
  · exact uncovered_causes hac ho h l a b c hp hl e
  · exact e

theorem premiseR10_causes {G : GG n} (h : Right E o Sel G) {a c : Fin n} (hp : G.PremiseR10 a c) : Ca E o Sel a c := by
  obtain ⟨b, d, u, v, l1, l2, hb, hd, p1, e1, p2, e2, huv, hn⟩ := hp
  obtain ⟨a1, a1'⟩ := p1.1 a u ⟨[], l1, by simp⟩
  obtain ⟨a2, -⟩ := p2.1 a v ⟨[], l2, by simp⟩
  rw [isAdj_iff h.pag] at a1 a2
  have hn' : G.g u v = .null := by
    by_contra hx; rw [(isAdj_iff h.pag).2 hx] at hn; simp at hn
  have a1'' : G.g a u ≠ .arrow := fun e => a1' ((getEndpoint_iff h.pag).2 ⟨by simp, e⟩)
  rcases h.middle hac ho huv (adj_symm h.pag a1) (adj_symm h.pag a2) hn' (Or.inl a1'') with e | e
  · exact (uncovered_causes hac ho h l1 a u b p1 e1 e).trans (h.tail _ _ ((getEndpoint_iff h.pag).1 hb).2)
  · exact (uncovered_causes hac ho h l2 a v d p2 e2 e).trans (h.tail _ _ ((getEndpoint_iff h.pag).1 hd).2)

/-- Going round the cycle in one direction. -/
theorem cycle_sel {G : GG n} (h : Right E o Sel G) {s : ℤ → Fin n} {m : ℕ} (hm : 0 < m) (hper : ∀ i, s (i + m) = s i)
    (hs : ∀ i, G.getEndpoint (s i) (s (i + 1)) = some .circle ∧ G.getEndpoint (s (i + 1)) (s i) = some .circle ∧ s i ≠ s (i + 2) ∧
      G.isAdj (s i) (s (i + 2)) = false) (hf : Ca E o Sel (s 0) (s 1)) : AncOf E Sel (o (s 0)) := by
  have hcirc : ∀ i, G.g (s (i + 1)) (s i) = .circle ∧ G.g (s i) (s (i + 1)) = .circle := fun i =>
    ⟨((getEndpoint_iff h.pag).1 (hs i).1).2, ((getEndpoint_iff h.pag).1 (hs i).2.1).2⟩
  have hne : ∀ i, s i ≠ s (i + 1) := fun i => ne_of_adj h.pag (by simp [(hcirc i).2])
  by_contra hsel
  have key : ∀ k : ℕ, Ca E o Sel (s k) (s (k + 1)) ∧ Ca E o Sel (s 0) (s (k + 1)) := by
    intro k
    induction k with
    | zero => exact ⟨by simpa using hf, by simpa using hf⟩
    | succ k ih =>
      obtain ⟨h1, h2⟩ := ih
      have hn : G.g (s k) (s (k + 2)) = .null := by
        by_contra hx; have := (hs k).2.2.2; rw [(isAdj_iff h.pag).2 hx] at this; simp at this
      have c1 := hcirc k
      have c2 := hcirc (k + 1)
      rw [show (k : ℤ) + 1 + 1 = k + 2 by ring] at c2
      have hmid := h.middle (b := s (k + 1)) hac ho (hs k).2.2.1 (by simp [c1.2]) (by simp [c2.1]) hn (Or.inl (by simp [c1.1]))
      have hstep : Ca E o Sel (s (k + 1)) (s (k + 2)) := by
        refine hmid.resolve_left fun hback => hsel ?_
        have hA : AncOf E Sel (o (s (k + 1))) := Causes.mutual hac (fun e => hne k (ho e).symm) hback h1
        obtain ⟨z, rfl | hz, hp⟩ := h2
        · exact hA.of_path hp
        · exact ⟨z, hz, hp⟩
      push_cast
      rw [show (k : ℤ) + 1 + 1 = k + 2 by ring]
      exact ⟨hstep, h2.trans hstep⟩
  obtain ⟨m, rfl⟩ : ∃ k, m = k + 1 := ⟨m - 1, by omega⟩
  -- walk from `s 1` round to `s 0`
  have key2 : ∀ k : ℕ, Ca E o Sel (s 1) (s (k + 1 + 1)) := by
    intro k
    induction k with
    | zero => simpa using (key 1).1
    | succ k ih =>
      have := (key (k + 2)).1
      push_cast at this ⊢
      rw [show (k : ℤ) + 2 = k + 1 + 1 by ring] at this
      exact ih.trans this
  have hback : Ca E o Sel (s 1) (s 0) := by
    have e0 : s ((m : ℤ) + 1) = s 0 := by have := hper 0; push_cast at this; simpa using this
    rcases m with _ | m
    · exact absurd (by simpa using e0) (hne 0).symm
    · have := key2 m
      push_cast at e0
      rw [e0] at this
      exact this
  exact hsel (Causes.mutual hac (fun e => by have := ho e; exact hne 0 (by simpa using this)) hf hback)

theorem premiseR5_causes {G : GG n} (h : Right E o Sel G) {x : Fin n} (hp : G.PremiseR5 x) : AncOf E Sel (o x) := by
  obtain ⟨s, m, hm, rfl, hper, hs⟩ := hp
  have hcirc : ∀ i, G.g (s (i + 1)) (s i) = .circle ∧ G.g (s i) (s (i + 1)) = .circle := fun i =>
    ⟨((getEndpoint_iff h.pag).1 (hs i).1).2, ((getEndpoint_iff h.pag).1 (hs i).2.1).2⟩
  have c1 := hcirc (-1)
  have c2 := hcirc 0
  have hn : G.g (s (-1)) (s 1) = .null := by
    by_contra hx; have := (hs (-1)).2.2.2; rw [show (-1 : ℤ) + 2 = 1 by ring, (isAdj_iff h.pag).2 hx] at this; simp at this
  have hne := (hs (-1)).2.2.1
  rw [show (-1 : ℤ) + 2 = 1 by ring] at hne
  rw [show (-1 : ℤ) + 1 = 0 by ring] at c1
  rw [show (0 : ℤ) + 1 = 1 by ring] at c2
  rcases h.middle (b := s 0) hac ho hne (by simp [c1.2]) (by simp [c2.1]) hn (Or.inl (by simp [c1.1])) with e | e
  · refine cycle_sel hac ho h (s := fun i => s (-i)) hm (fun i => ?_) (fun i => ?_) (by simpa using e)
    · have := hper (-(i + m))
      rw [show -(i + (m : ℤ)) + m = -i by ring] at this
      exact this.symm
    · have q := hs (-(i + 1))
      have q2 := hs (-(i + 2))
      rw [show -(i + 1) + 1 = -i by ring] at q
      rw [show -(i + 2) + 2 = -i by ring] at q2
      refine ⟨q.2.1, q.1, q2.2.2.1.symm, ?_⟩
      have := q2.2.2.2
      rw [Bool.eq_false_iff, ne_eq, isAdj_iff h.pag] at this ⊢
      exact fun hx => this (adj_symm h.pag hx)
  · exact cycle_sel hac ho h hm hper hs e

omit hac ho in
/-- A rule that only turns circles into tails keeps the graph right when its new tails are true. -/
theorem Right.newTails {G H : GG n} (h : Right E o Sel G) (hk : Refine G H) (ht : ∀ a b, H.g a b = .arrow → G.g a b = .arrow)
    (hn : ∀ x y, G.g x y = .circle → H.g x y = .tail → Ca E o Sel x y) : Right E o Sel H := by
  refine h.step hk.keep fun a b => ?_
  rcases hk.step b a with e | ⟨e, e2 | e2⟩
  · exact Or.inl e
  · exact Or.inr (Or.inr ⟨e2, hn b a e e2⟩)
  · exact Or.inl (by rw [e2, ht b a e2])

omit hac ho in
theorem r5_tails {st : GG n × Bool} (h : st.1.Pag) : ∀ a b, (r5 st).1.g a b = .arrow → st.1.g a b = .arrow := by
  have : TailRef st.1 (r5 st).1 := by
    unfold r5
    refine foldl_inv (fun u : GG n × Bool => TailRef st.1 u.1) _ _ (fun u hu b _ => ?_) _ TailRef.rfl
    have key : ∀ (l : List (Fin n)) (w : GG n × Bool), w.1.Pag → (∀ a ∈ l, w.1.g b a = .circle ∨ w.1.g a b ≠ .circle) →
        TailRef w.1 (l.foldl (r5Step b) w).1 := by
      intro l
      induction l with
      | nil => intro w _ _; exact TailRef.rfl
      | cons a l ih =>
        intro w hw hl
        have hstep : TailRef w.1 (r5Step b w a).1 := by
          rcases hl a (List.mem_cons_self ..) with e | e
          · exact (r5Step_step hw e).2
          · have : r5Step b w a = w := by
              unfold r5Step
              rw [if_pos]
              simp only [Bool.not_eq_true', Bool.eq_false_iff, ne_eq, ep_iff hw]
              exact fun hc => e hc.2
            rw [this]; exact TailRef.rfl
        refine hstep.trans (ih _ (hstep.ref.pag hw) fun a' ha' => ?_)
        have h1 := hl a' (List.mem_cons_of_mem _ ha')
        have h2 := hstep.both b a'
        have h3 := hstep.both a' b
        grind
    have hp := hu.ref.pag h
    refine hu.trans (key _ u hp fun a ha => Or.inl ?_)
    rwa [mem_nodesInto hp (by simp)] at ha
  exact this.tails

theorem round_right (hs : ∀ i, o i ∉ Sel) {env : FciEnv n} (hO : OracleFor E o Sel env.ind) {ss : SSet n}
    (hss : ∀ x y T, x ≠ y → ss x y = some T → EntryOk E o Sel x y T) {first : Bool} {G : GG n} (h : Right E o Sel G)
    (hj : Justified env ss first G) : Right E o Sel (round env ss first G).1.1 := by
  have h3 : Right E o Sel (r3 env.k ss (r1r2 env.k (G, false))).1 := r3_right hac ho (r1r2_right hac ho (st := (G, false)) h)
  have h4 : Right E o Sel (afterR4 env ss first G).1 := by
    unfold afterR4
    split
    · exact r4_right hac ho hs hO hss h3
    · exact h3
  have hnt : ∀ {P : GG n → Fin n → Fin n → Prop} {K L : GG n}, K.Pag → L.Pag → NewTails P K L → ∀ x y, K.g x y = .circle → L.g x y = .tail → P K x y :=
    fun hK hL hN x y e1 e2 => hN x y ((getEndpoint_iff hK).2 ⟨by simp, e1⟩) ((getEndpoint_iff hL).2 ⟨by simp, e2⟩)
  have s5 := r5_step (st := afterR4 env ss first G) h4.pag
  have h5 : Right E o Sel (r5 (afterR4 env ss first G)).1 := h4.newTails s5.ref (r5_tails h4.pag)
    fun x y e1 e2 => .of_sel (premiseR5_causes hac ho h4 (hnt h4.pag (s5.ref.pag h4.pag) hj.tails5 x y e1 e2))
  have h8 : Right E o Sel (afterR8 env ss first G).1 := r8_right (r7_right hac ho (r6_right hac ho h5))
  have s9 := r9_step (env := env) (st := afterR8 env ss first G) h8.pag
  have h9 : Right E o Sel (r9 env (afterR8 env ss first G)).1 := h8.newTails s9.ref s9.tails
    fun x y e1 e2 => premiseR9_causes hac ho h8 e1 (hnt h8.pag (s9.ref.pag h8.pag) hj.tails9 x y e1 e2)
  have s10 := r10_step (env := env) (st := r9 env (afterR8 env ss first G)) h9.pag
  exact h9.newTails s10.ref s10.tails
    fun x y e1 e2 => premiseR10_causes hac ho h9 (hnt h9.pag (s10.ref.pag h9.pag) hj.tails10 x y e1 e2)

theorem mainLoop_right (hs : ∀ i, o i ∉ Sel) {env : FciEnv n} (hO : OracleFor E o Sel env.ind) {ss : SSet n}
    (hss : ∀ x y T, x ≠ y → ss x y = some T → EntryOk E o Sel x y T) {G0 : GG n}
    (hj : ∀ first K, Reached env ss G0 first K → Justified env ss first K) : ∀ (f : Nat) (first : Bool) (G H : GG n),
    Reached env ss G0 first G → Right E o Sel G → mainLoop env ss f first G = some H → Right E o Sel H
  | 0, _, _, _, _, _, e => by simp [mainLoop] at e
  | f + 1, first, G, H, hr, h, e => by
    have h' := round_right hac ho hs hO hss h (hj first G hr)
    unfold mainLoop at e
    dsimp only at e
    split at e
    · rename_i hfl
      exact mainLoop_right hs hO hss hj f _ _ H (.next hr hfl) h' e
    · cases e; exact h'

end

/-! ### The separating-set table and the collider step -/

theorem findSep_sound {env : FciEnv n} (he : env.Ok) {G : GG n} {a b x y : Fin n} {S : List (Fin n)}
    (hxy : ({a, b} : Set (Fin n)) = {x, y}) (h : findSep env G a b (possibleDsep env G x y (-1)) = some S) :
    a ∉ S ∧ b ∉ S ∧ env.ind a b S = true := by
  have hn := possibleDsep_nodup he G x y (-1)
  unfold findSep at h
  have h1 := List.find?_some h
  have h2 := ((mem_tested hn S).1 (List.mem_of_find?_eq_some h)).1
  simp only [Bool.and_eq_true] at h1
  have key : ∀ v ∈ S, v ≠ x ∧ v ≠ y := by
    intro v hv
    have := h2.subset hv
    unfold possibleDsep at this
    rw [(he.sorted _).mem_iff] at this
    simp at this
    exact ⟨this.2.1, this.2.2⟩
  have ha : a = x ∨ a = y := by have : a ∈ ({x, y} : Set (Fin n)) := hxy ▸ Or.inl rfl; simpa using this
  have hb : b = x ∨ b = y := by have : b ∈ ({x, y} : Set (Fin n)) := hxy ▸ Or.inr rfl; simpa using this
  refine ⟨fun hm => ?_, fun hm => ?_, h1.2⟩
  · rcases ha with e | e
    · exact (key a hm).1 e
    · exact (key a hm).2 e
  · rcases hb with e | e
    · exact (key b hm).1 e
    · exact (key b hm).2 e

theorem pdsepStep_cases {env : FciEnv n} (he : env.Ok) {s : GG n × SSet n} (h : s.1.Pag) {i j : Fin n} (hij : i ≠ j) (hne : s.1.g i j ≠ .null) :
    pdsepStep env s (mkEdge i j (s.1.g i j) (s.1.g j i)) = s ∨
    ∃ (a b : Fin n) (S : List (Fin n)), ((a = i ∧ b = j) ∨ (a = j ∧ b = i)) ∧ a ∉ S ∧ b ∉ S ∧ env.ind a b S = true ∧
      (pdsepStep env s (mkEdge i j (s.1.g i j) (s.1.g j i))).1.g = set2 s.1.g i j .null .null ∧
      (pdsepStep env s (mkEdge i j (s.1.g i j) (s.1.g j i))).2 = upd s.2 a b (some S) := by
  have hrem := remove_g h hne
  generalize hed : mkEdge i j (s.1.g i j) (s.1.g j i) = e at *
  have hnd : (e.node1 = i ∧ e.node2 = j) ∨ (e.node1 = j ∧ e.node2 = i) := by
    rw [← hed]; unfold mkEdge; split <;> simp
  have hnot : (s.1.removeEdge e).containsEdge e = false := by
    have q3 : (s.1.removeEdge e).g i j = .null := by rw [hrem]; exact set2_left
    have q4 : (s.1.removeEdge e).g j i = .null := by rw [hrem]; exact set2_right hij
    unfold containsEdge
    rcases hnd with ⟨a1, a2⟩ | ⟨a1, a2⟩ <;> rw [a1, a2, q3, q4] <;> cases e.end1 <;> cases e.end2 <;> rfl
  cases hA : findSep env s.1 e.node1 e.node2 (possibleDsep env s.1 e.node1 e.node2 (-1)) with
  | some S =>
    obtain ⟨c1, c2, c3⟩ := findSep_sound he (Eq.refl _) hA
    have hh : pdsepHalf env s e = (s.1.removeEdge e, upd s.2 e.node1 e.node2 (some S)) := by simp [pdsepHalf, pdsepTry, hA]
    have hs : pdsepStep env s e = (s.1.removeEdge e, upd s.2 e.node1 e.node2 (some S)) := by simp [pdsepStep, hh, hnot]
    rw [hs]
    exact Or.inr ⟨e.node1, e.node2, S, hnd, c1, c2, c3, hrem, Eq.refl _⟩
  | none =>
    have hh : pdsepHalf env s e = s := by simp [pdsepHalf, pdsepTry, hA]
    by_cases hcon : s.1.containsEdge e = true
    · cases hB : findSep env s.1 e.node1 e.node2 (possibleDsep env s.1 e.node2 e.node1 (-1)) with
      | some S =>
        obtain ⟨c1, c2, c3⟩ := findSep_sound he (Set.pair_comm _ _) hB
        have hs : pdsepStep env s e = (s.1.removeEdge e, upd s.2 e.node1 e.node2 (some S)) := by
          simp [pdsepStep, hh, hcon, pdsepTry, hB]
        rw [hs]
        exact Or.inr ⟨e.node1, e.node2, S, hnd, c1, c2, c3, hrem, Eq.refl _⟩
      | none => exact Or.inl (by simp [pdsepStep, hh, hcon, pdsepTry, hB])
    · exact Or.inl (by simp [pdsepStep, hh, hcon])

/-- What holds of a graph and a table of separating sets: entries are right, and a missing edge has an entry under one order at least. -/
structure TableOk (E : V → V → Prop) (o : Fin n → V) (Sel : Set V) (s : GG n × SSet n) : Prop where
  entry : ∀ x y T, x ≠ y → s.2 x y = some T → EntryOk E o Sel x y T
  some : ∀ x y, x ≠ y → s.1.g x y = .null → s.2 x y ≠ none ∨ s.2 y x ≠ none

theorem TableOk.separable {s : GG n × SSet n} (h : TableOk E o Sel s) {x y : Fin n} (hxy : x ≠ y) (hn : s.1.g x y = .null) : Separable E o Sel x y := by
  have key : ∀ x y, x ≠ y → s.2 x y ≠ none → Separable E o Sel x y := by
    intro x y hxy hT
    obtain ⟨T, hT⟩ := Option.ne_none_iff_exists'.1 hT
    obtain ⟨-, S, -, hS⟩ := h.entry x y T hxy hT
    exact ⟨S, hS⟩
  rcases h.some x y hxy hn with q | q
  · exact key x y hxy q
  · exact separable_symm (key y x hxy.symm q)

theorem sepBy_of_ind {ind : CI n} (hO : OracleFor E o Sel ind) {x y : Fin n} {S : List (Fin n)} (hxy : x ≠ y) (hx : x ∉ S) (hy : y ∉ S)
    (h : ind x y S = true ∨ ind y x S = true) : SepBy E o Sel x y {v | v ∈ S} := by
  refine ⟨hx, hy, ?_⟩
  rcases h with h | h
  · exact (hO x y S hxy hx hy).1 h
  · exact dSep_symm.1 ((hO y x S hxy.symm hy hx).1 h)

theorem entryOk_of_good {ind : CI n} (hO : OracleFor E o Sel ind) {k : Know n} {d : Nat} {x y : Fin n} {T : List (Fin n)} (hxy : x ≠ y)
    (h : SSGood ind k d x y T) (hk : k.ban x y = false) : EntryOk E o Sel x y T := by
  obtain ⟨h1, h2⟩ := h
  rw [hk] at h2
  simp only [Bool.false_eq_true, or_false] at h2
  obtain ⟨S, h3, h4, -⟩ := h2
  refine ⟨fun z hz => ?_, {v | v ∈ S}, fun z hz => h3 hz, sepBy_of_ind hO hxy h4.2.1 h4.2.2.1 h4.2.2.2⟩
  obtain ⟨S', a1, a2, -⟩ := h1 z hz
  exact ⟨{v | v ∈ S'}, a1, sepBy_of_ind hO hxy a2.2.1 a2.2.2.1 a2.2.2.2⟩

/-- The state in which the orientation loop starts: the table is right, and the graph is what the collider step makes of a graph with the
same missing edges. -/
theorem prepare_table {env : FciEnv n} (he : env.Ok) (hO : OracleFor E o Sel env.ind) (hk : ∀ a b, env.k.ban a b = false) (depth : Option Nat) :
    ∃ s, prepare env depth = some s ∧ TableOk E o Sel s ∧ ∃ K : GG n, K.Pag ∧ s.1 = rule0 env.k s.2 K ∧
      ∀ r, fas true env.ind env.k depth = some r → (∀ x y, r.1.g x y = .null → K.g x y = .null ∧ s.2 x y = r.2 x y) ∧
        ∀ x y, x ≠ y → K.g x y = .null → r.1.g x y ≠ .null → Separable E o Sel x y := by
  obtain ⟨r, d, hr, hi, -⟩ := fas_spec true env.ind env.k depth
  have h1 := (reorientAll_spec hi.und.pag).1
  have n1 := (reorientAll_spec hi.und.pag).2
  have h2 := rule0_keep (k := env.k) (ss := r.ss) h1
  have hnull : ∀ x y, (rule0 env.k r.ss (reorientAll .circle r.G)).g x y = .null ↔ r.G.g x y = .null := by
    intro x y
    rw [h2.2 x y, n1]
    by_cases hn : r.G.g x y = .null <;> simp [hn]
  obtain ⟨⟨t1, t2, t3⟩, hp, hn, hown⟩ := fold_graphEdges (fun s : GG n × SSet n => s.1) (pdsepStep env)
    (fun s => TableOk E o Sel s ∧ (∀ x y, r.G.g x y = .null → s.1.g x y = .null ∧ s.2 x y = r.ss x y) ∧ ∀ x y, x ≠ y → s.1.g x y = .null → r.G.g x y ≠ .null → Separable E o Sel x y)
    (fun _ _ _ _ _ _ => True) (by
      rintro t ⟨ht1, ht2, ht3⟩ ht i j hij hne
      have hij' := ne_of_lt hij
      obtain ⟨q1, q2, -⟩ := pdsepStep_spec (env := env) ht hij' hne
      rcases pdsepStep_cases he ht hij' hne with e | ⟨a, b, S, hab, hS1, hS2, hS3, eg, es⟩
      · refine ⟨?_, q1, q2, trivial⟩
        simp only [e]
        exact ⟨ht1, ht2, ht3⟩
      · refine ⟨?_, q1, q2, trivial⟩
        have hab' : a ≠ b := by rcases hab with ⟨rfl, rfl⟩ | ⟨rfl, rfl⟩; exacts [hij', hij'.symm]
        have hsep := sepBy_of_ind hO hab' hS1 hS2 (Or.inl hS3)
        have hupd : ∀ x y, (pdsepStep env t (mkEdge i j (t.1.g i j) (t.1.g j i))).2 x y = if x = a ∧ y = b then some S else t.2 x y := by
          intro x y; rw [es]; simp [upd_apply]
        have hgr : ∀ x y, (pdsepStep env t (mkEdge i j (t.1.g i j) (t.1.g j i))).1.g x y =
            if x = i ∧ y = j then .null else if x = j ∧ y = i then .null else t.1.g x y := by
          intro x y; rw [eg]; rfl
        refine ⟨⟨fun x y T hxy hT => ?_, fun x y hxy hn => ?_⟩, fun x y hn => ?_, fun x y hxy hn hr' => ?_⟩
        · rw [hupd] at hT
          split at hT
          · rename_i hc
            obtain ⟨rfl, rfl⟩ := hc
            cases hT
            exact ⟨fun z hz => ⟨_, hz, hsep⟩, _, fun z hz => hz, hsep⟩
          · exact ht1.entry x y T hxy hT
        · rw [hupd, hupd]
          rw [hgr] at hn
          by_cases hc : (x = a ∧ y = b) ∨ (y = a ∧ x = b)
          · rcases hc with hc | hc
            · left; simp [hc]
            · right; simp [hc]
          · have hc1 : ¬ (x = a ∧ y = b) := fun h => hc (Or.inl h)
            have hc2 : ¬ (y = a ∧ x = b) := fun h => hc (Or.inr h)
            rw [if_neg hc1, if_neg hc2]
            refine ht1.some x y hxy ?_
            rcases hab with ⟨rfl, rfl⟩ | ⟨rfl, rfl⟩ <;> grind
        · obtain ⟨m1, m2⟩ := ht2 x y hn
          rw [hupd, hgr, m1]
          refine ⟨by split <;> simp, ?_⟩
          rw [if_neg, m2]
          rintro ⟨rfl, rfl⟩
          rcases hab with ⟨rfl, rfl⟩ | ⟨rfl, rfl⟩
          · exact hne m1
          · exact adj_symm ht hne m1
        · rw [hgr] at hn
          by_cases hc : (x = a ∧ y = b) ∨ (x = b ∧ y = a)
          · rcases hc with ⟨rfl, rfl⟩ | ⟨rfl, rfl⟩
            · exact ⟨_, hsep⟩
            · exact separable_symm ⟨_, hsep⟩
          · refine ht3 x y hxy ?_ hr'
            rcases hab with ⟨rfl, rfl⟩ | ⟨rfl, rfl⟩ <;> grind)
    (rule0 env.k r.ss (reorientAll .circle r.G), r.ss)
    ⟨⟨fun x y T hxy hT => entryOk_of_good hO hxy (hi.ss x y T hT).good (hk x y),
      fun x y hxy hn => Or.inl fun h0 => (hi.ssIff x y hxy).1 h0 ((hnull x y).1 hn)⟩, fun x y h0 => ⟨(hnull x y).2 h0, Eq.refl _⟩,
      fun x y _ hn hr' => absurd ((hnull x y).1 hn) hr'⟩ h2.1
  obtain ⟨p1, e1⟩ := reorientAll_spec hp
  have hKn : ∀ x y, (reorientAll .circle (removeByPdsep env (rule0 env.k r.ss (reorientAll .circle r.G), r.ss)).1).g x y = .null ↔
      (removeByPdsep env (rule0 env.k r.ss (reorientAll .circle r.G), r.ss)).1.g x y = .null := by
    intro x y
    have := e1 x y
    unfold removeByPdsep
    rw [this]
    split <;> simp_all
  refine ⟨(rule0 env.k (removeByPdsep env (rule0 env.k r.ss (reorientAll .circle r.G), r.ss)).2 (reorientAll .circle (removeByPdsep env (rule0 env.k r.ss (reorientAll .circle r.G), r.ss)).1), (removeByPdsep env (rule0 env.k r.ss (reorientAll .circle r.G), r.ss)).2),
    by rw [prepare, hr]; exact Eq.refl _, ⟨t1.entry, fun x y hxy hn => t1.some x y hxy ?_⟩, _, p1, Eq.refl _, fun r' hr' => ?_⟩
  · exact (hKn x y).1 (((rule0_keep p1).2 x y).1 hn)
  · rw [hr] at hr'
    cases hr'
    exact ⟨fun x y h0 => ⟨(hKn x y).2 (t2 x y h0).1, (t2 x y h0).2⟩, fun x y hxy h0 h3 => t3 x y hxy ((hKn x y).1 h0) h3⟩

/-- The collider step makes a right graph from right adjacencies and a table with an entry in index order for every missing edge. -/
theorem rule0_right (hac : Acyclic E) (ho : Function.Injective o) (hs : ∀ i, o i ∉ Sel) {K : GG n} (hK : K.Pag) {ss : SSet n}
    (hss : ∀ x y T, x ≠ y → ss x y = some T → EntryOk E o Sel x y T) (hins : ∀ a b, K.g a b ≠ .null → ¬ Separable E o Sel a b)
    (hord : ∀ a b, a < b → K.g a b = .null → ss a b ≠ none) : Right E o Sel (rule0 Know.none ss K) := by
  obtain ⟨hp, hn⟩ := rule0_keep (k := Know.none) (ss := ss) hK
  have hc : ∀ a b, (rule0 Know.none ss K).g b a = .arrow ↔ ∃ c, (a < c ∧ K.ColliderBySepset ss a b c) ∨ (c < a ∧ K.ColliderBySepset ss c b a) := by
    intro a b
    have := (C68_rule0_exact_partial hK ss a b).2.1
    rw [getEndpoint_iff hp] at this
    simpa using this
  have key : ∀ a b c, a < c → K.ColliderBySepset ss a b c → ¬ Ca E o Sel b a ∧ ¬ Ca E o Sel b c := by
    rintro a b c hlt ⟨h1, h2, h3, T, hT, hb⟩
    rw [isAdj_iff hK] at h1 h2
    obtain ⟨-, S, hST, hS⟩ := hss a c T (ne_of_lt hlt) hT
    exact triple_out hac ho hs (ne_of_adj hK h1) (ne_of_adj hK h2).symm (hins a b h1) (hins b c (adj_symm hK h2))
      (fun hbS => hb (hST b hbS)) hS.2.2
  refine ⟨hp, fun a b e => ?_, fun a b e => ?_, fun a b e => hins a b (fun h0 => e ((hn a b).2 h0)), ?_⟩
  · obtain ⟨c, ⟨hlt, hh⟩ | ⟨hlt, hh⟩⟩ := (hc a b).1 e
    · exact (key a b c hlt hh).1
    · exact (key c b a hlt hh).2
  · exfalso
    have hadj : K.isAdj a b = true := (isAdj_iff hK).2 (adj_symm hK (fun h0 => by rw [(hn b a).2 h0] at e; simp at e))
    have := (C68_rule0_exact_partial hK ss a b).2.2 hadj
    rw [ne_eq, getEndpoint_iff hp, getEndpoint_iff hp, e] at this
    simp at this
  · -- an unshielded triple whose middle is no ancestor of an end
    have main : ∀ a b c, a < c → K.g a b ≠ .null → K.g c b ≠ .null → K.g a c = .null → ¬ Ca E o Sel b a → ¬ Ca E o Sel b c →
        K.ColliderBySepset ss a b c := by
      intro a b c hlt h1 h2 h3 h4 h5
      obtain ⟨T, hT⟩ := Option.ne_none_iff_exists'.1 (hord a c hlt h3)
      refine ⟨(isAdj_iff hK).2 h1, (isAdj_iff hK).2 h2, ?_, T, hT, fun hbT => ?_⟩
      · rw [Bool.eq_false_iff, ne_eq, isAdj_iff hK]; exact fun h => h h3
      · obtain ⟨S, hbS, hS⟩ := (hss a c T (ne_of_lt hlt) hT).1 b hbT
        rcases triple_in hac ho hs (ne_of_adj hK h1) (ne_of_adj hK h2).symm (hins a b h1) (hins b c (adj_symm hK h2)) hbS hS.2.2 with q | q
        · exact h4 q
        · exact h5 q
    intro a b c hne h1 h2 h3 h4 h5
    have h1' : K.g a b ≠ .null := fun h0 => h1 ((hn a b).2 h0)
    have h2' : K.g c b ≠ .null := fun h0 => h2 ((hn c b).2 h0)
    have h3' := (hn a c).1 h3
    rcases lt_or_gt_of_ne hne with hlt | hlt
    · have q := main a b c hlt h1' h2' h3' h4 h5
      exact ⟨(hc a b).2 ⟨c, Or.inl ⟨hlt, q⟩⟩, (hc c b).2 ⟨a, Or.inr ⟨hlt, q⟩⟩⟩
    · have q := main c b a hlt h2' h1' ((hK.symm a c).1 h3') h5 h4
      exact ⟨(hc a b).2 ⟨c, Or.inr ⟨hlt, q⟩⟩, (hc c b).2 ⟨a, Or.inl ⟨hlt, q⟩⟩⟩

end Fci
open Fci

variable {E : V → V → Prop} {o : Fin n → V} {Sel : Set V}

/-- **C69 (no true adjacency is lost).** If no set of observed variables d-separates two observed variables given the selection, they are
adjacent in the graph `fci` returns — whatever the depth, the path lengths and the order of the variables, with or without knowledge
that forbids no pair in both directions. -/
theorem C69_inseparable_adjacent {env : FciEnv n} (he : env.Ok) (hO : CausalOracle E o Sel env.ind)
    (hk : ∀ a b, ¬ (env.k.forb a b = true ∧ env.k.forb b a = true)) (depth : Option Nat) :
    ∃ H, fci env depth = some H ∧ ∀ x y, x ≠ y → ¬ Separable E o Sel x y → H.isAdj x y = true := by
  have hban : ∀ a b, env.k.ban a b = false := by
    intro a b
    have := hk a b
    simp [Know.ban] at this ⊢
    tauto
  obtain ⟨s, e, ht, -⟩ := prepare_table he hO.ind hban depth
  obtain ⟨s', H, first, e', hs, eH, hp, hk', -⟩ := fci_some env depth
  rw [e] at e'
  cases e'
  refine ⟨H, eH, fun x y hxy hns => ?_⟩
  rw [isAdj_iff hp]
  intro h0
  exact hns (ht.separable hxy ((hk'.null x y).1 h0))

/-- **C69 (the marks are true; partial).** The CI test answers d-separation in a causal graph with latent variables and selection,
there is no background knowledge, the skeleton FCI starts the orientation from has no edge too many, and each missing edge has its separating
set under the index order. If in every round R5, R9 and R10 put tails only where the published rules would, then every arrowhead and
every tail of the result is true. Missing: the hypotheses `hskel` and `hord` can fail (C29, C68), `hjust` can fail
(`C69_r9_violated`, `C69_r5_violated`). -/
theorem C69_marks_true_partial {env : FciEnv n} (he : env.Ok) (hO : CausalOracle E o Sel env.ind) (hk : env.k = Know.none)
    (depth : Option Nat) {s : GG n × SSet n} (hprep : prepare env depth = some s)
    (hskel : ∀ a b, s.1.isAdj a b = true → ¬ Separable E o Sel a b)
    (hord : ∀ a b, a < b → s.1.isAdj a b = false → s.2 a b ≠ none)
    (hjust : ∀ first K, Reached env s.2 s.1 first K → Justified env s.2 first K) :
    ∃ H, fci env depth = some H ∧ H.MarksTrue E o Sel := by
  obtain ⟨s', e, ht, K, hK, e1, -⟩ := prepare_table he hO.ind (by simp [hk, Know.none, Know.ban]) depth
  rw [hprep] at e
  cases e
  rw [hk] at e1
  obtain ⟨p1, n1⟩ := rule0_keep (k := Know.none) (ss := s.2) hK
  rw [← e1] at p1 n1
  have hnadj : ∀ a b, s.1.g a b = .null → s.1.isAdj a b = false := by
    intro a b h0
    rw [Bool.eq_false_iff, ne_eq, isAdj_iff p1]; exact fun h => h h0
  have h0 : Right E o Sel s.1 := by
    rw [e1]
    refine rule0_right hO.acyclic hO.inj hO.sel hK ht.entry (fun a b hab => hskel a b ((isAdj_iff p1).2 fun h => hab ((n1 a b).1 h)))
      (fun a b hlt hab => hord a b hlt (hnadj a b ((n1 a b).2 hab)))
  obtain ⟨s', H, first, e', hs, eH, hp, hk', -⟩ := fci_some env depth
  rw [hprep] at e'
  cases e'
  refine ⟨H, eH, ?_⟩
  have hl : mainLoop env s.2 (n * n + 2) true s.1 = some H := by
    unfold fci at eH; rw [hprep] at eH; exact eH
  have hR := mainLoop_right hO.acyclic hO.inj hO.sel hO.ind ht.entry hjust _ true s.1 H .start h0 hl
  rw [marksTrue_iff hp]
  exact fun a b => ⟨hR.arrow a b, hR.tail a b⟩

/-- **C69 (every variable observed; partial).** When the CI test answers d-separation in a DAG over the observed variables themselves,
the adjacencies are exactly those of the DAG, and the marks are true if R5, R9 and R10 keep to the published rules: an arrowhead at
`b` on `a – b` says that `b` is no ancestor of `a` (so `a → b`), a tail that it is one (so `b → a`). Missing: `hjust`. -/
theorem C69_dag_partial {D : Fin n → Fin n → Prop} {env : FciEnv n} (he : env.Ok) (hO : CausalOracle D id ∅ env.ind) (hk : env.k = Know.none)
    (hjust : ∀ s, prepare env none = some s → ∀ first K, Reached env s.2 s.1 first K → Justified env s.2 first K) :
    ∃ H, fci env none = some H ∧ (∀ a b, H.isAdj a b = true ↔ Adj D a b) ∧
      ∀ a b, (H.getEndpoint a b = some .arrow → D a b) ∧ (H.getEndpoint a b = some .tail → D b a) := by
  classical
  have hac := hO.acyclic
  have hDS : ∀ x y (S : List (Fin n)), x ≠ y → x ∉ S → y ∉ S → (env.ind x y S = true ↔ DSep D {v | v ∈ S} x y) := by
    intro x y S h1 h2 h3
    have := hO.ind x y S h1 h2 h3
    simpa using this
  have hadjSep : ∀ x y, Adj D x y → ¬ Separable D id (∅ : Set (Fin n)) x y := by
    rintro x y ha ⟨S, hx, hy, hS⟩
    refine hS (dConn_of_adj (hac.ne_of_adj ha) ha)
  obtain ⟨r, hr, hre⟩ := C51_exact_skeleton true env.ind env.k none (Adj D) (fun _ _ h => h.symm) (fun x h => hac.ne_of_adj h rfl) (Or.inl rfl)
    (by simp [hk, Know.none])
    (by
      intro x y S T hxy hS hT hx hy hST
      have h1 := hDS x y S hxy hx hy
      have h2 := hDS x y T hxy (fun h => hx ((hST x).2 h)) (fun h => hy ((hST y).2 h))
      have e : {v | v ∈ S} = {v | v ∈ T} := Set.ext hST
      rw [e] at h1
      rw [Bool.eq_iff_iff, h1, h2])
    (by
      intro x y S _ hx hy ha
      by_contra hc
      exact (hDS x y S (hac.ne_of_adj ha) hx hy).1 (by simpa using hc) (dConn_of_adj (hac.ne_of_adj ha) ha))
    (by
      intro x y hne hna
      have key : ∀ v w : Fin n, v ≠ w → ¬ Adj D v w → DSep D {p | D p v} v w →
          ∃ S : List (Fin n), S.Nodup ∧ (∀ z ∈ S, Adj D v z) ∧ env.ind v w S = true := by
        intro v w hvw hna hs
        have hm : ∀ p, p ∈ (List.finRange n).filter (fun p => decide (D p v)) ↔ D p v := by intro p; simp
        refine ⟨_, (List.nodup_finRange n).filter _, fun z hz => Or.inr ((hm z).1 hz), (hDS v w _ hvw ?_ ?_).2 ?_⟩
        · intro hv; exact hac.irrefl _ ((hm v).1 hv)
        · intro hw; exact hna (Or.inr ((hm w).1 hw))
        · convert hs using 1
          ext p; exact hm p
      rcases exists_parents_sep hac hne hna with hs | hs
      · obtain ⟨S, h1, h2, h3⟩ := key x y hne hna hs
        exact ⟨S, h1, by simp, Or.inl ⟨h2, h3⟩⟩
      · obtain ⟨S, h1, h2, h3⟩ := key y x hne.symm (fun h => hna h.symm) (dSep_symm.1 hs)
        exact ⟨S, h1, by simp, Or.inr ⟨h2, h3⟩⟩)
  obtain ⟨s, e, ht, K, hK, e1, hf⟩ := prepare_table he hO.ind (by simp [hk, Know.none, Know.ban]) none
  obtain ⟨hf1, hf2⟩ := hf r hr
  obtain ⟨p1, n1⟩ := rule0_keep (k := env.k) (ss := s.2) hK
  rw [← e1] at p1 n1
  have hadj : ∀ a b, s.1.isAdj a b = true ↔ Adj D a b := by
    intro a b
    rw [isAdj_iff p1, ← (hre a b).1, IsEdge, ne_eq, n1]
    refine not_congr ⟨fun h0 => ?_, fun h0 => (hf1 a b h0).1⟩
    by_contra hr0
    have ha := (hre a b).1.1 hr0
    exact hadjSep a b ha (hf2 a b (hac.ne_of_adj ha) h0 hr0)
  obtain ⟨r', d, hr', hi, -⟩ := fas_spec true env.ind env.k none
  obtain rfl : r = (r'.G, r'.ss) := by rw [hr] at hr'; exact Option.some.inj hr'
  obtain ⟨H, eH, hM⟩ := C69_marks_true_partial he hO hk none e (fun a b h => hadjSep a b ((hadj a b).1 h))
    (by
      intro a b hlt hab
      have hn : r'.G.g a b = .null := by
        by_contra h0
        have := (hadj a b).2 ((hre a b).1.1 h0)
        rw [hab] at this; simp at this
      rw [(hf1 a b hn).2]
      exact fun h0 => (hi.ssIff a b (ne_of_lt hlt)).1 h0 hn)
    (hjust s e)
  obtain ⟨s', H', first, e', hs, eH', hp, hk', -⟩ := fci_some env none
  rw [e] at e'
  cases e'
  rw [eH] at eH'
  cases eH'
  have hadjH : ∀ a b, H.isAdj a b = true ↔ Adj D a b := by
    intro a b
    rw [← hadj, isAdj_iff hp, isAdj_iff p1, ne_eq, ne_eq, hk'.null]
  refine ⟨H, eH, hadjH, fun a b => ?_⟩
  have hA : ∀ m, H.getEndpoint a b = some m → Adj D a b := by
    intro m hm
    rw [← hadjH, isAdj_iff hp]
    have := (getEndpoint_iff hp).1 hm
    exact adj_symm hp (by rw [this.2]; exact this.1)
  have anc : ∀ x y, D x y → Causes D (∅ : Set (Fin n)) (id x) (id y) := fun x y h => ⟨y, by simp, .single h⟩
  constructor
  · intro h
    rcases hA _ h with q | q
    · exact q
    · exact absurd (anc b a q) ((hM a b).1 h)
  · intro h
    rcases hA _ h with q | q
    · obtain ⟨z, hz, hp'⟩ := (hM a b).2 h
      simp at hz
      subst hz
      exact absurd (Relation.TransGen.head' q hp') (hac _)
    · exact q

/-! ### Runs of FCI on the answers of a concrete causal graph -/

/-- The CI test that answers d-separation in the graph `e` (observed variables `o`, no selection). -/
def oracleOf {m : Nat} (e : Fin m → Fin m → Bool) (o : Fin n → Fin m) : CI n := fun x y S =>
  !dconnB e (fun v => S.any fun i => o i == v) (o x) (o y)

theorem causalOracle_of {m : Nat} {e : Fin m → Fin m → Bool} {o : Fin n → Fin m} (r : Fin m → Nat) (hr : ∀ a b, e a b = true → r a < r b)
    (hm : ∀ a, r a < m) (ho : Function.Injective o) : CausalOracle (fun a b => e a b = true) o ∅ (oracleOf e o) := by
  have hmono : ∀ a b, Relation.TransGen (fun a b => e a b = true) a b → r a < r b := by
    intro a b h
    induction h with
    | single h => exact hr _ _ h
    | tail _ h ih => exact ih.trans (hr _ _ h)
  refine ⟨fun x hx => ?_, ho, by simp, fun x y S _ _ _ => ?_⟩
  · exact absurd (hmono x x hx) (lt_irrefl _)
  rw [oracleOf, Bool.not_eq_true', Bool.eq_false_iff, ne_eq, dconnB_iff hr hm, DSep]
  have : {v | (S.any fun i => o i == v) = true} = o '' {v | v ∈ S} ∪ ∅ := by
    ext v; simp
  rw [this]

/-- Latent common cause 4 of 1 and 2; `1 → 0`, `3 → 2`. -/
def latE : Fin 5 → Fin 5 → Bool := fun a b => (a == 1 && b == 0) || (a == 4 && b == 1) || (a == 4 && b == 2) || (a == 3 && b == 2)

/-- the DAG `0 → 1, 2, 3, 4`, `1 → 3`, `1 → 2`, `2 → 4` -/
def fanE : Fin 5 → Fin 5 → Bool := fun a b => (a == 0 && b != 0) || (a == 1 && b == 3) || (a == 1 && b == 2) || (a == 2 && b == 4)

theorem latOracle : CausalOracle (fun a b => latE a b = true) (Fin.castSucc : Fin 4 → Fin 5) ∅ (oracleOf latE Fin.castSucc) :=
  causalOracle_of (fun v => if v = 4 then 0 else if v = 0 ∨ v = 2 then 2 else 1) (by decide) (by decide) (Fin.castSucc_injective 4)

theorem fanOracle : CausalOracle (fun a b => fanE a b = true) id ∅ (oracleOf fanE id) :=
  causalOracle_of (fun v => v.val) (by decide) (by decide) Function.injective_id

/-- **C69 violated (R9).** The CI test answers d-separation; the causal graph is `0 ← 1 ← L → 2 ← 3` with `L` latent. `fci` returns `1 → 2`,
although 1 is no ancestor of 2: R9's path may start with the edge back to `A` itself. -/
theorem C69_r9_violated : ∃ H, fci (exEnv (oracleOf latE (Fin.castSucc : Fin 4 → Fin 5)) Know.none) none = some H ∧
    H.getEndpoint 2 1 = some .tail ∧ H.getEndpoint 1 2 = some .arrow ∧
    ¬ H.MarksTrue (fun a b => latE a b = true) (Fin.castSucc : Fin 4 → Fin 5) ∅ := by
  obtain ⟨H, e, h1, h2⟩ := elim_decide (o := fci (exEnv (oracleOf latE (Fin.castSucc : Fin 4 → Fin 5)) Know.none) none)
    (P := fun H : GG 4 => H.getEndpoint 2 1 = some .tail ∧ H.getEndpoint 1 2 = some .arrow) (by decide +kernel)
  refine ⟨H, e, h1, h2, fun hM => ?_⟩
  obtain ⟨z, hz, hp⟩ := (hM 2 1).2 h1
  simp at hz
  subst hz
  have := (reachB_complete (e := latE) (r := fun v => if v = 4 then 0 else if v = 0 ∨ v = 2 then 2 else 1) (by decide) hp).2 5 (by decide)
  revert this
  decide

/-- **C69 violated (R5).** Without latent variables or selection, on the d-separation answers of a DAG with the edge `1 → 2`, `fci` returns
`1 — 2` (tails at both ends): R5 does not check that the circle path is uncovered at its two ends. -/
theorem C69_r5_violated : ∃ H, fci (exEnv (oracleOf fanE id) Know.none) none = some H ∧
    H.getEndpoint 2 1 = some .tail ∧ H.getEndpoint 1 2 = some .tail ∧ ¬ H.MarksTrue (fun a b => fanE a b = true) id ∅ := by
  obtain ⟨H, e, h1, h2⟩ := elim_decide (o := fci (exEnv (oracleOf fanE id) Know.none) none)
    (P := fun H : GG 5 => H.getEndpoint 2 1 = some .tail ∧ H.getEndpoint 1 2 = some .tail) (by decide +kernel)
  refine ⟨H, e, h1, h2, fun hM => ?_⟩
  obtain ⟨z, hz, hp⟩ := (hM 1 2).2 h2
  simp at hz
  subst hz
  have := (reachB_complete (e := fanE) (r := fun v => v.val) (by decide) hp).2 5 (by decide)
  revert this
  decide

/-- The orientation loop ends after the second round, and R5, R9, R10 put no tail. -/
def TwoQuietRounds (env : FciEnv n) (s : GG n × SSet n) : Prop :=
  (round env s.2 true s.1).2 = false ∧ (round env s.2 true s.1).1.2 = true ∧ (round env s.2 false (round env s.2 true s.1).1.1).1.2 = false ∧
  ∀ first ∈ [true, false], ∀ K ∈ [s.1, (round env s.2 true s.1).1.1],
    (∀ x y, (afterR4 env s.2 first K).1.getEndpoint y x = some .circle → (r5 (afterR4 env s.2 first K)).1.getEndpoint y x ≠ some .tail) ∧
    (∀ x y, (afterR8 env s.2 first K).1.getEndpoint y x = some .circle → (r9 env (afterR8 env s.2 first K)).1.getEndpoint y x ≠ some .tail) ∧
    (∀ x y, (r9 env (afterR8 env s.2 first K)).1.getEndpoint y x = some .circle →
      (r10 env (r9 env (afterR8 env s.2 first K))).1.getEndpoint y x ≠ some .tail)

instance (env : FciEnv n) (s : GG n × SSet n) : Decidable (TwoQuietRounds env s) := by unfold TwoQuietRounds; infer_instance

theorem TwoQuietRounds.justified {env : FciEnv n} {s : GG n × SSet n} (h : TwoQuietRounds env s) {first : Bool} {K : GG n}
    (hr : Reached env s.2 s.1 first K) : Justified env s.2 first K := by
  obtain ⟨q1, q2, q3, q4⟩ := h
  have hK : (first = true ∧ K = s.1) ∨ (first = false ∧ K = (round env s.2 true s.1).1.1) := by
    induction hr with
    | start => exact Or.inl ⟨rfl, rfl⟩
    | @next f G _ hfl ih =>
      rcases ih with ⟨rfl, rfl⟩ | ⟨rfl, rfl⟩
      · exact Or.inr ⟨q1, rfl⟩
      · rw [q3] at hfl; simp at hfl
  obtain ⟨a1, a2, a3⟩ := q4 first (by rcases hK with h | h <;> simp [h.1]) K (by rcases hK with h | h <;> simp [h.2])
  exact ⟨fun x y h1 h2 => absurd h2 (a1 x y h1), fun x y h1 h2 => absurd h2 (a2 x y h1), fun x y h1 h2 => absurd h2 (a3 x y h1)⟩

/-- `0 → 2 ← 1`, `2 → 3` -/
def yE : Fin 4 → Fin 4 → Bool := fun a b => (a == 0 && b == 2) || (a == 1 && b == 2) || (a == 2 && b == 3)

theorem yOracle : CausalOracle (fun a b => yE a b = true) id ∅ (oracleOf yE id) :=
  causalOracle_of (fun v => v.val) (by decide) (by decide) Function.injective_id

/-- An example that meets the hypotheses of `C69_dag_partial` and `C69_inseparable_adjacent`: two colliding causes and an effect. R1 directs
`2 → 3` in the first round; R5, R9 and R10 never put a tail. -/
example : (∃ H, fci (exEnv (oracleOf yE id) Know.none) none = some H ∧ (∀ a b, H.isAdj a b = true ↔ Adj (fun a b => yE a b = true) a b) ∧
      (∀ a b, (H.getEndpoint a b = some .arrow → yE a b = true) ∧ (H.getEndpoint a b = some .tail → yE b a = true))) ∧
    ∃ H, fci (exEnv (oracleOf yE id) Know.none) none = some H ∧ H.getEndpoint 0 2 = some .arrow ∧ H.getEndpoint 2 0 = some .circle ∧
      H.getEndpoint 2 3 = some .arrow ∧ H.getEndpoint 3 2 = some .tail := by
  refine ⟨?_, elim_decide (P := fun H : GG 4 => H.getEndpoint 0 2 = some .arrow ∧ H.getEndpoint 2 0 = some .circle ∧
      H.getEndpoint 2 3 = some .arrow ∧ H.getEndpoint 3 2 = some .tail) (by decide +kernel)⟩
  refine C69_dag_partial (exEnv_ok _ _) yOracle rfl fun s hs first K hr => TwoQuietRounds.justified ?_ hr
  obtain ⟨s', e, h⟩ := elim_decide (o := prepare (exEnv (oracleOf yE id) Know.none) none)
    (P := fun s => TwoQuietRounds (exEnv (oracleOf yE id) Know.none) s) (by decide +kernel)
  rw [hs] at e
  cases e
  exact h

/-- `0 → 2 ← 1`, `2 → 3 ← L → 4` with `L = 5` latent -/
def mE : Fin 6 → Fin 6 → Bool := fun a b =>
  (a == 0 && b == 2) || (a == 1 && b == 2) || (a == 2 && b == 3) || (a == 5 && b == 3) || (a == 5 && b == 4)

theorem mOracle : CausalOracle (fun a b => mE a b = true) (Fin.castSucc : Fin 5 → Fin 6) ∅ (oracleOf mE Fin.castSucc) :=
  causalOracle_of (fun v => if v = 5 then 0 else if v = 3 ∨ v = 4 then 3 else if v = 2 then 1 else 0) (by decide) (by decide) (Fin.castSucc_injective 5)

/-- an inseparable pair of a concrete graph, by going through all conditioning sets -/
theorem not_separable_of {m : Nat} {e : Fin m → Fin m → Bool} {o : Fin n → Fin m} (r : Fin m → Nat) (hr : ∀ a b, e a b = true → r a < r b)
    (hm : ∀ a, r a < m) {x y : Fin n}
    (h : ∀ T : Finset (Fin n), x ∉ T → y ∉ T → dconnB e (fun v => decide (∃ i ∈ T, o i = v)) (o x) (o y) = true) :
    ¬ Separable (fun a b => e a b = true) o ∅ x y := by
  classical
  rintro ⟨S, hx, hy, hS⟩
  have := h (Finset.univ.filter (· ∈ S)) (by simpa using hx) (by simpa using hy)
  rw [dconnB_iff hr hm] at this
  have e1 : {v | decide (∃ i ∈ Finset.univ.filter (· ∈ S), o i = v) = true} = o '' S ∪ ∅ := by
    ext v; simp
  rw [e1] at this
  exact hS this

/-- `C69_marks_true_partial` with a latent variable: the hypotheses hold, and among the true marks are `2 → 3` and `4 o→ 3`. -/
theorem mRun : (∃ H, fci (exEnv (oracleOf mE (Fin.castSucc : Fin 5 → Fin 6)) Know.none) none = some H ∧ H.MarksTrue (fun a b => mE a b = true) (Fin.castSucc : Fin 5 → Fin 6) ∅) ∧
    ∃ H, fci (exEnv (oracleOf mE (Fin.castSucc : Fin 5 → Fin 6)) Know.none) none = some H ∧ H.getEndpoint 2 3 = some .arrow ∧ H.getEndpoint 3 2 = some .tail ∧
      H.getEndpoint 4 3 = some .arrow ∧ H.getEndpoint 3 4 = some .circle := by
  refine ⟨?_, elim_decide (P := fun H : GG 5 => H.getEndpoint 2 3 = some .arrow ∧ H.getEndpoint 3 2 = some .tail ∧
      H.getEndpoint 4 3 = some .arrow ∧ H.getEndpoint 3 4 = some .circle) (by decide +kernel)⟩
  obtain ⟨s, e, h1, h2, h3⟩ := elim_decide (o := prepare (exEnv (oracleOf mE (Fin.castSucc : Fin 5 → Fin 6)) Know.none) none)
    (P := fun s => TwoQuietRounds (exEnv (oracleOf mE (Fin.castSucc : Fin 5 → Fin 6)) Know.none) s ∧
      (∀ a b, s.1.isAdj a b = true → (a, b) ∈ [((0, 2) : Fin 5 × Fin 5), (2, 0), (1, 2), (2, 1), (2, 3), (3, 2), (3, 4), (4, 3)]) ∧
      ∀ a b, a < b → s.1.isAdj a b = false → s.2 a b ≠ none) (by decide +kernel)
  refine C69_marks_true_partial (exEnv_ok _ _) mOracle rfl none e (fun a b hab => ?_) h3 fun first K hr => h1.justified hr
  have hab' := h2 a b hab
  refine not_separable_of (fun v => if v = 5 then 0 else if v = 3 ∨ v = 4 then 3 else if v = 2 then 1 else 0) (by decide) (by decide) ?_
  revert a b
  have : ∀ p ∈ [((0, 2) : Fin 5 × Fin 5), (2, 0), (1, 2), (2, 1), (2, 3), (3, 2), (3, 4), (4, 3)], ∀ T : Finset (Fin 5), p.1 ∉ T → p.2 ∉ T →
      dconnB mE (fun v => decide (∃ i ∈ T, i.castSucc = v)) p.1.castSucc p.2.castSucc = true := by decide +kernel
  exact fun a b _ h => this _ h

end CL
