import Verif.Proofs.IMap
import Mathlib.Data.Set.Card
import Mathlib.Data.Finite.Prod
import Mathlib.Order.Bounds.Basic
import Mathlib.Data.Set.Finite.Lattice

/-!
# The theorem of Meek and Chickering

If `H` is an independence map of `G`, then `G` can be turned into `H` by reversing covered edges and adding edges, staying below `H`.
The proof follows Chickering's algorithm, with a fixed order of `H`; independence maps are compared through moral graphs.
-/
namespace Spec
open Relation
variable {V : Type} {G H : V → V → Prop}

/-- `G` with the edge `x → y` added. -/
def plus (G : V → V → Prop) (x y a b : V) : Prop := G a b ∨ (a = x ∧ b = y)

/-- One transformation: a covered reversal or an addition. -/
def Tr (G G' : V → V → Prop) : Prop :=
  (∃ x y, Covered G x y ∧ G' = flip' G x y) ∨ (∃ x y, ¬ Adj G x y ∧ Acyclic (plus G x y) ∧ G' = plus G x y)

theorem plus_acyclic (hG : Acyclic G) {x y : V} (hne : x ≠ y) (h : ¬ TransGen G y x) : Acyclic (plus G x y) := by
  have key : ∀ a b, TransGen (plus G x y) a b → TransGen G a b ∨ (ReflTransGen G a x ∧ ReflTransGen G y b) := by
    intro a b hab
    induction hab with
    | single h =>
      rcases h with h | ⟨rfl, rfl⟩
      · exact Or.inl (.single h)
      · exact Or.inr ⟨.refl, .refl⟩
    | tail _ h ih =>
      rcases h with h | ⟨rfl, rfl⟩
      · rcases ih with ih | ih
        · exact Or.inl (ih.tail h)
        · exact Or.inr ⟨ih.1, ih.2.tail h⟩
      · rcases ih with ih | ih
        · exact Or.inr ⟨ih.to_reflTransGen, .refl⟩
        · exact Or.inr ⟨ih.1, .refl⟩
  intro a ha
  rcases key a a ha with h1 | ⟨h1, h2⟩
  · exact hG a h1
  · rcases reflTransGen_iff_eq_or_transGen.1 (h2.trans h1) with e | e
    · exact hne e
    · exact h e

/-- More edges, fewer separations. -/
theorem imap_of_sub (hG : Acyclic G) (hH : Acyclic H) (hsub : ∀ a b, G a b → H a b) : IMap G H := by
  intro Z a b _ ha hb hs hc
  rw [dConn_iff_moral hG ha hb] at hc
  refine hs ((dConn_iff_moral hH ha hb).2 (ReflTransGen.mono ?_ _ _ hc))
  rintro u v ⟨k, ⟨t, ht, hp⟩, h2, h3, h4, h5⟩
  exact ⟨k, ⟨t, ht, ReflTransGen.mono (fun _ _ h => hsub _ _ h) _ _ hp⟩, h2.imp_right (hsub _ _), h3.imp_right (hsub _ _), h4, h5⟩

theorem Tr.acyclic {G' : V → V → Prop} (hG : Acyclic G) (h : Tr G G') : Acyclic G' := by
  rcases h with ⟨x, y, hc, rfl⟩ | ⟨x, y, -, h, rfl⟩
  · exact flip'_acyclic hG hc
  · exact h

theorem Tr.imap {G' : V → V → Prop} (hG : Acyclic G) (h : Tr G G') : IMap G G' := by
  rcases h with ⟨x, y, hc, rfl⟩ | ⟨x, y, -, h, rfl⟩
  · intro Z a b _ ha hb hs hd
    exact hs (flip'_dConn hG hc ha hb hd)
  · exact imap_of_sub hG h fun _ _ => Or.inl

/-- What holds between `G` and `H` while the nodes of rank `k` and above are finished. -/
structure Done (ρ : V → Nat) (H : V → V → Prop) (k : Nat) (G : V → V → Prop) : Prop where
  acyclic : Acyclic G
  imap : IMap G H
  par : ∀ v p, k ≤ ρ v → (G p v ↔ H p v)
  up : ∀ a b, G a b → k ≤ ρ a → k ≤ ρ b

variable {ρ : V → Nat}

theorem Done.path_up {k : Nat} (h : Done ρ H k G) {a b : V} (hp : ReflTransGen G a b) (ha : k ≤ ρ a) : k ≤ ρ b := by
  induction hp with
  | refl => exact ha
  | tail _ h' ih => exact h.up _ _ h' ih

/-- The finished nodes satisfy the local criterion. -/
theorem local_done {k : Nat} {G' : V → V → Prop} (hac : Acyclic G') (hH : ∀ a b, H a b → ρ a < ρ b) (par : ∀ v p, k ≤ ρ v → (G' p v ↔ H p v))
    (up : ∀ a b, G' a b → k ≤ ρ a → k ≤ ρ b) {i j : V} (hi : k ≤ ρ i) (hij : ρ j < ρ i) (hn : ¬ H j i) : DSep G' {p | H p i} i j := by
  have hne : i ≠ j := by rintro rfl; omega
  have he : {p | H p i} = {p | G' p i} := by ext p; exact (par i p hi).symm
  rw [he]
  have hpath : ∀ b, TransGen G' i b → k ≤ ρ b ∧ ρ i < ρ b := by
    intro b hb
    induction hb with
    | single h =>
      have := up _ _ h hi
      exact ⟨this, hH _ _ ((par _ _ this).1 h)⟩
    | tail _ h ih =>
      have := up _ _ h ih.1
      exact ⟨this, ih.2.trans (hH _ _ ((par _ _ this).1 h))⟩
  refine local_markov hac hne ?_ ?_
  · rintro (h | h)
    · have := (hpath j (.single h)).2
      omega
    · exact hn ((par i j hi).1 h)
  · intro h
    have := (hpath j h).2
    omega

/-- Adding `x → z` when `x → y → z` and `y` is not conditioned on, or `x` is. -/
theorem plus_shortcut (hG : Acyclic G) {x y z : V} (hxy : G x y) (hyz : G y z) (hac : Acyclic (plus G x z)) {Z : Set V} {i j : V} (hi : i ∉ Z) (hj : j ∉ Z)
    (hs : DSep G Z i j) (hor : y ∉ Z ∨ x ∈ Z) : DSep (plus G x z) Z i j := by
  refine dSep_of_msteps (Ys := {j}) hG hac (by rintro _ rfl; exact hs) rfl hi hj ?_
  have hanc : ∀ {T : Set V} {v}, AncOf (plus G x z) T v → AncOf G T v := by
    rintro T v ⟨t, ht, hp⟩
    induction hp using ReflTransGen.head_induction_on with
    | refl => exact ⟨t, ht, .refl⟩
    | head h _ ih =>
      rcases h with h | ⟨rfl, rfl⟩
      · exact ih.of_edge h
      · exact (ih.of_edge hyz).of_edge hxy
  have hT : ({i, j} : Set V) ∪ Z = {i} ∪ {j} ∪ Z := by rw [Set.singleton_union]
  rw [hT]
  rintro u v ⟨k, hk, hu, hv, huZ, hvZ⟩
  have hk' := hanc hk
  by_cases hkz : k = z
  · subst hkz
    -- members of the enlarged family reach `y` or were members before
    have fam : ∀ {w}, w ∉ Z → (w = k ∨ plus G x k w k) → (w = k ∨ G w k) ∨ (w = x ∧ y ∉ Z) := by
      rintro w hw (e | e | e)
      · exact Or.inl (Or.inl e)
      · exact Or.inl (Or.inr e)
      · exact Or.inr ⟨e.1, hor.resolve_right fun h => hw (e.1 ▸ h)⟩
    have hyA : AncOf G ({i} ∪ {j} ∪ Z) y := hk'.of_edge hyz
    have toY : ∀ {w}, w ∉ Z → (w = k ∨ G w k) → y ∉ Z → MStep G Z ({i} ∪ {j} ∪ Z) w y := fun hw h hy => ⟨k, hk', h, Or.inr hyz, hw, hy⟩
    have xToY : x ∉ Z → y ∉ Z → MStep G Z ({i} ∪ {j} ∪ Z) x y := fun h1 h2 => ⟨y, hyA, Or.inr hxy, Or.inl rfl, h1, h2⟩
    rcases fam huZ hu with h1 | ⟨rfl, h1⟩
    · rcases fam hvZ hv with h2 | ⟨rfl, h2⟩
      · exact .single ⟨k, hk', h1, h2, huZ, hvZ⟩
      · exact (ReflTransGen.single (toY huZ h1 h2)).tail (xToY hvZ h2).symm
    · rcases fam hvZ hv with h2 | ⟨rfl, h2⟩
      · exact (ReflTransGen.single (xToY huZ h1)).tail (toY hvZ h2 h1).symm
      · exact .refl
  · have fam : ∀ {w}, (w = k ∨ plus G x z w k) → w = k ∨ G w k := by
      rintro w (e | e | e)
      · exact Or.inl e
      · exact Or.inr e
      · exact absurd e.2 hkz
    exact .single ⟨k, hk', fam hu, fam hv, huZ, hvZ⟩

/-- Adding `x → y` when `x → z ← y`, the parents of `y` are parents of `z`, and `z` is an ancestor of the (enlarged) query. -/
theorem plus_family (hG : Acyclic G) {x y z : V} (hxz : G x z) (hyz : G y z) (hpar : ∀ p, G p y → G p z) (hac : Acyclic (plus G x y)) {Z : Set V} {i j : V}
    (hi : i ∉ Z) (hj : j ∉ Z) {Ys : Set V} (hjY : j ∈ Ys) (hs : ∀ v ∈ Ys, DSep G Z i v) (hz : AncOf G ({i} ∪ Ys ∪ Z) z) : DSep (plus G x y) Z i j := by
  refine dSep_of_msteps (Ys := Ys) hG hac hs hjY hi hj ?_
  have hsub : ({i, j} : Set V) ∪ Z ⊆ {i} ∪ Ys ∪ Z := by
    rintro t ((rfl | rfl) | ht)
    · exact Or.inl (Or.inl rfl)
    · exact Or.inl (Or.inr hjY)
    · exact Or.inr ht
  have hanc : ∀ {v}, AncOf (plus G x y) ({i, j} ∪ Z) v → AncOf G ({i} ∪ Ys ∪ Z) v := by
    rintro v ⟨t, ht, hp⟩
    induction hp using ReflTransGen.head_induction_on with
    | refl => exact ⟨t, hsub ht, .refl⟩
    | head h _ ih =>
      rcases h with h | ⟨rfl, rfl⟩
      · exact ih.of_edge h
      · exact hz.of_edge hxz
  rintro u v ⟨k, hk, hu, hv, huZ, hvZ⟩
  by_cases hky : k = y
  · subst hky
    have fam : ∀ {w}, (w = k ∨ plus G x k w k) → G w z := by
      rintro w (e | e | e)
      · exact e ▸ hyz
      · exact hpar w e
      · exact e.1 ▸ hxz
    exact .single ⟨z, hz, Or.inr (fam hu), Or.inr (fam hv), huZ, hvZ⟩
  · have fam : ∀ {w}, (w = k ∨ plus G x y w k) → w = k ∨ G w k := by
      rintro w (e | e | e)
      · exact Or.inl e
      · exact Or.inr e
      · exact absurd e.2 hky
    exact .single ⟨k, hanc hk, fam hu, fam hv, huZ, hvZ⟩

/-- Changing the parents of a node that is no ancestor of the query. -/
theorem dSep_of_same_above {G' : V → V → Prop} (hG : Acyclic G) (hG' : Acyclic G') {Z : Set V} {i j : V} (hi : i ∉ Z) (hj : j ∉ Z) (hs : DSep G Z i j)
    (hsame : ∀ k, AncOf G' ({i, j} ∪ Z) k → ∀ p, G' p k → G p k) : DSep G' Z i j := by
  refine dSep_of_msteps (Ys := {j}) hG hG' (by rintro _ rfl; exact hs) rfl hi hj ?_
  have hT : ({i, j} : Set V) ∪ Z = {i} ∪ {j} ∪ Z := by rw [Set.singleton_union]
  have hanc : ∀ {v}, AncOf G' ({i, j} ∪ Z) v → AncOf G ({i, j} ∪ Z) v := by
    rintro v ⟨t, ht, hp⟩
    induction hp using ReflTransGen.head_induction_on with
    | refl => exact ⟨t, ht, .refl⟩
    | @head a c h hp ih => exact ih.of_edge (hsame c ⟨t, ht, hp⟩ a h)
  rintro u v ⟨k, hk, hu, hv, huZ, hvZ⟩
  rw [← hT]
  exact .single ⟨k, hanc hk, hu.imp_right (hsame k hk u), hv.imp_right (hsame k hk v), huZ, hvZ⟩

/-! ## One step towards a sink -/

/-- While the node `y` of rank `k` has a child of lower rank, there is a transformation step, and either an edge is added or that child set shrinks. -/
theorem step_exists [Finite V] (hinj : ∀ a b, ρ a = ρ b → a = b) (hH : ∀ a b, H a b → ρ a < ρ b) {N : Nat} (hN : ∀ v, ρ v < N) {k : Nat} {y : V} (hy : ρ y = k)
    (hd : Done ρ H (k + 1) G) {c : V} (hyc : G y c) (hck : ρ c < k) :
    ∃ G', Tr G G' ∧ Done ρ H (k + 1) G' ∧ ((∃ u v, ¬ Adj G u v ∧ u ≠ v ∧ Adj G' u v ∧ ∀ a b, Adj G a b → Adj G' a b) ∨
      ((∀ a b, Adj G a b ↔ Adj G' a b) ∧ ∃ z, G y z ∧ ρ z < k ∧ ¬ G' y z ∧ ∀ w, G' y w → G y w)) := by
  classical
  have hG := hd.acyclic
  have hHac := acyclic_of_rank hH
  have hyUp : ¬ (k + 1 ≤ ρ y) := by omega
  -- the lowest descendant
  obtain ⟨D, ⟨hD, hDk⟩, hDmin⟩ : ∃ D, (TransGen G y D ∧ ρ D < k) ∧ ∀ t, TransGen G y t → ρ t < k → ρ D ≤ ρ t := by
    have hne : ∃ m, ∃ t, (TransGen G y t ∧ ρ t < k) ∧ ρ t = m := ⟨ρ c, c, ⟨.single hyc, hck⟩, rfl⟩
    obtain ⟨t, ht, hm⟩ := Nat.find_spec hne
    exact ⟨t, ht, fun t' h1 h2 => by rw [hm]; exact Nat.find_min' hne ⟨t', ⟨h1, h2⟩, rfl⟩⟩
  -- the first child above it
  obtain ⟨r, hr⟩ := hG.exists_rank
  obtain ⟨z, ⟨hyz, hzD⟩, hzmin⟩ : ∃ z, (G y z ∧ ReflTransGen G z D) ∧ ∀ w, G y w → ReflTransGen G w D → r z ≤ r w := by
    have hne : ∃ m, ∃ w, (G y w ∧ ReflTransGen G w D) ∧ r w = m := by
      obtain ⟨w, h1, h2⟩ := TransGen.head'_iff.1 hD
      exact ⟨r w, w, ⟨h1, h2⟩, rfl⟩
    obtain ⟨t, ht, hm⟩ := Nat.find_spec hne
    exact ⟨t, ht, fun t' h1 h2 => by rw [hm]; exact Nat.find_min' hne ⟨t', ⟨h1, h2⟩, rfl⟩⟩
  have low : ∀ {v}, ReflTransGen G v D → ρ v < k + 1 := fun {v} h => by
    by_contra hc
    have := hd.path_up h (by omega)
    omega
  have hyzne : y ≠ z := hG.ne_of_adj (Or.inl hyz)
  have rk : ∀ {v}, v ≠ y → ρ v < k + 1 → ρ v < k := fun {v} h1 h2 => by
    have : ρ v ≠ k := fun e => h1 (hinj _ _ (e.trans hy.symm))
    omega
  have hzk : ρ z < k := rk hyzne.symm (low hzD)
  -- no other directed path from `y` to `z`
  have hnopath : ∀ w, G y w → TransGen G w z → False := fun w h1 h2 => by
    have := hzmin w h1 (h2.to_reflTransGen.trans hzD)
    have := rank_lt hr h2
    omega
  -- low parents of `y` in `G` are parents in `H`
  have lowPar : ∀ {p v}, G p v → ρ v < k + 1 → ρ p < k + 1 := fun {p v} h hv => by
    by_contra hc
    have := hd.up _ _ h (by omega)
    omega
  have adjH : ∀ {v}, Adj G v y → ρ v < k → H v y := fun {v} h hv => by
    rcases hd.imap.adj hHac hG h with h' | h'
    · exact h'
    · have := hH _ _ h'
      omega
  have hzH : H z y := adjH (Or.inr hyz) hzk
  have hloc : ∀ {i j}, ρ j < ρ i → ¬ H j i → DSep G {p | H p i} i j := fun h1 h2 => hd.imap.local hH h1 h2
  have hirr : ∀ i, i ∉ {p | H p i} := fun i h => hHac.irrefl i h
  by_cases hcov : Covered G y z
  · refine ⟨flip' G y z, Or.inl ⟨y, z, hcov, rfl⟩, ⟨flip'_acyclic hG hcov, ?_, ?_, ?_⟩, Or.inr ⟨flip'_adj hcov.1, z, hyz, hzk, ?_, ?_⟩⟩
    · intro Z a b hab ha hb hs hc
      exact hd.imap Z a b hab ha hb hs ((flip'_dConn_iff hG hcov ha hb).2 hc)
    · intro v p hv
      rw [← hd.par v p hv]
      unfold flip'
      constructor
      · rintro (h | ⟨-, rfl⟩)
        · exact h.1
        · omega
      · intro h
        exact Or.inl ⟨h, by rintro ⟨-, rfl⟩; omega⟩
    · rintro a b (h | ⟨rfl, rfl⟩) ha
      · exact hd.up a b h.1 ha
      · omega
    · rintro (h | ⟨h, -⟩)
      · exact h.2 ⟨rfl, rfl⟩
      · exact hyzne h
    · rintro w (h | ⟨h, -⟩)
      · exact h.1
      · exact absurd h hyzne
  · -- not covered: add an edge into the pair
    have done_plus : ∀ {x t}, ρ t < k + 1 → ρ x < k + 1 → Acyclic (plus G x t) →
        (∀ i j, ρ i ≤ k → ρ j < ρ i → ¬ H j i → DSep (plus G x t) {p | H p i} i j) → Done ρ H (k + 1) (plus G x t) := by
      intro x t ht hx hac hl
      have par : ∀ v p, k + 1 ≤ ρ v → (plus G x t p v ↔ H p v) := by
        intro v p hv
        rw [← hd.par v p hv]
        exact ⟨fun h => h.resolve_right (by rintro ⟨-, rfl⟩; omega), Or.inl⟩
      have up : ∀ a b, plus G x t a b → k + 1 ≤ ρ a → k + 1 ≤ ρ b := by
        rintro a b (h | ⟨rfl, rfl⟩) ha
        · exact hd.up a b h ha
        · omega
      refine ⟨hac, imap_of_local hac hinj hH hN fun i j hij hn => ?_, par, up⟩
      by_cases hi : k + 1 ≤ ρ i
      · exact local_done hac hH par up hi hij hn
      · exact hl i j (by omega) hij hn
    have added : ∀ {x t}, ¬ Adj G x t → x ≠ t → (∃ u v, ¬ Adj G u v ∧ u ≠ v ∧ Adj (plus G x t) u v ∧ ∀ a b, Adj G a b → Adj (plus G x t) a b) := by
      intro x t h hne
      exact ⟨x, t, h, hne, Or.inl (Or.inr ⟨rfl, rfl⟩), fun a b hab => hab.imp Or.inl Or.inl⟩
    by_cases hB : ∃ x, G x y ∧ ¬ G x z
    · obtain ⟨x, hxy, hxz⟩ := hB
      have hxne : x ≠ z := by rintro rfl; exact hG.asymm hyz hxy
      have hnadj : ¬ Adj G x z := by
        rintro (h | h)
        · exact hxz h
        · exact hG x ((TransGen.single hxy).tail hyz |>.tail h)
      have hac : Acyclic (plus G x z) := plus_acyclic hG hxne fun h => hG y ((TransGen.single hyz).trans h |>.tail hxy)
      have hxk : ρ x < k := rk (hG.ne_of_adj (Or.inl hxy)) (lowPar hxy (by omega))
      refine ⟨plus G x z, Or.inr ⟨x, z, hnadj, hac, rfl⟩, done_plus (by omega) (by omega) hac ?_, Or.inl (added hnadj hxne)⟩
      intro i j hik hij hn
      refine plus_shortcut hG hxy hyz hac (hirr i) hn (hloc hij hn) ?_
      by_cases hiy : i = y
      · right
        subst hiy
        exact adjH (Or.inl hxy) hxk
      · left
        intro hyi
        have := hH _ _ hyi
        omega
    · push Not at hB
      obtain ⟨x, hxz, hxne, hxy⟩ : ∃ x, G x z ∧ x ≠ y ∧ ¬ G x y := by
        by_contra hcon
        push Not at hcon
        exact hcov ⟨hyz, fun p hp => ⟨fun h => hcon p h hp, fun h => hB p h⟩⟩
      have hnadj : ¬ Adj G x y := by
        rintro (h | h)
        · exact hxy h
        · exact hnopath x h (.single hxz)
      have hac : Acyclic (plus G x y) := plus_acyclic hG hxne fun h => by
        obtain ⟨w, h1, h2⟩ := TransGen.head'_iff.1 h
        exact hnopath w h1 (TransGen.tail' h2 hxz)
      have hxk : ρ x < k := rk hxne (lowPar hxz (by omega))
      refine ⟨plus G x y, Or.inr ⟨x, y, hnadj, hac, rfl⟩, done_plus (by omega) (by omega) hac ?_, Or.inl (added hnadj hxne)⟩
      intro i j hik hij hn
      have hs := hloc hij hn
      by_cases hzA : AncOf G ({i} ∪ {j} ∪ {p | H p i}) z
      · exact plus_family hG hxz hyz hB hac (hirr i) hn (Ys := {j}) rfl (by rintro _ rfl; exact hs) hzA
      · have hiy : i ≠ y := by
          rintro rfl
          exact hzA ⟨z, Or.inr hzH, .refl⟩
        by_cases hyA : AncOf G ({i} ∪ {j} ∪ {p | H p i}) y
        · -- a query node below `y`: the lowest descendant can be added to the query
          obtain ⟨t, ht, hp⟩ := hyA
          have hDT : D ∉ ({i} ∪ {j} ∪ {p | H p i} : Set V) := fun h => hzA ⟨D, h, hzD⟩
          have hik' : ρ i < k := rk hiy (by omega)
          have hti : ρ t ≤ ρ i := by
            rcases ht with (rfl | rfl) | ht
            · exact le_rfl
            · exact hij.le
            · exact (hH _ _ ht).le
          have hyt : TransGen G y t := by
            rcases reflTransGen_iff_eq_or_transGen.1 hp with e | e
            · exfalso
              rw [e] at hti
              omega
            · exact e
          have hDt := hDmin t hyt (by omega)
          have hDi : ρ D < ρ i := by
            rcases Nat.lt_or_ge (ρ D) (ρ t) with h | h
            · omega
            · exact absurd (hinj _ _ (le_antisymm hDt h) ▸ ht) hDT
          have hDn : ¬ H D i := fun h => hDT (Or.inr h)
          refine plus_family hG hxz hyz hB hac (hirr i) hn (Ys := {j, D}) (Or.inl rfl) ?_ ⟨D, Or.inl (Or.inr (Or.inr rfl)), hzD⟩
          rintro v (rfl | rfl)
          · exact hs
          · exact hloc hDi hDn
        · -- `y` is not above the query
          refine dSep_of_same_above hG hac (hirr i) hn hs ?_
          have hT : ({i, j} : Set V) ∪ {p | H p i} = {i} ∪ {j} ∪ {p | H p i} := by rw [Set.singleton_union]
          rw [hT]
          have hanc : ∀ {v}, AncOf (plus G x y) ({i} ∪ {j} ∪ {p | H p i}) v → AncOf G ({i} ∪ {j} ∪ {p | H p i}) v := by
            rintro v ⟨t, ht, hp⟩
            induction hp using ReflTransGen.head_induction_on with
            | refl => exact ⟨t, ht, .refl⟩
            | head h _ ih =>
              rcases h with h | ⟨rfl, rfl⟩
              · exact ih.of_edge h
              · exact absurd ih hyA
          rintro q hq p (h | ⟨rfl, rfl⟩)
          · exact h
          · exact absurd (hanc hq) hyA

theorem MarkovEquiv.refl (G : V → V → Prop) : MarkovEquiv G G := ⟨fun _ _ => Iff.rfl, fun _ _ _ => Iff.rfl⟩

theorem MarkovEquiv.trans {G H K : V → V → Prop} (h : MarkovEquiv G H) (h' : MarkovEquiv H K) : MarkovEquiv G K :=
  ⟨fun a b => (h.1 a b).trans (h'.1 a b), fun a b c => (h.2 a b c).trans (h'.2 a b c)⟩

/-- The pairs that are not adjacent. -/
def missing (G : V → V → Prop) : Set (V × V) := {p | p.1 ≠ p.2 ∧ ¬ Adj G p.1 p.2}

/-- Steps until the node of rank `k` has no child of lower rank. -/
theorem clear_low [Finite V] (hinj : ∀ a b, ρ a = ρ b → a = b) (hH : ∀ a b, H a b → ρ a < ρ b) {N : Nat} (hN : ∀ v, ρ v < N) {k : Nat} {y : V} (hy : ρ y = k) :
    ∀ m c (G : V → V → Prop), (missing G).ncard = m → {w | G y w}.ncard = c → Done ρ H (k + 1) G →
      ∃ G', ReflTransGen Tr G G' ∧ Done ρ H (k + 1) G' ∧ ∀ w, G' y w → k ≤ ρ w := by
  intro m
  induction m using Nat.strong_induction_on with
  | _ m ihm =>
    intro c
    induction c using Nat.strong_induction_on with
    | _ c ihc =>
      intro G hm hc hd
      by_cases hlow : ∃ w, G y w ∧ ρ w < k
      · obtain ⟨w, hw, hwk⟩ := hlow
        obtain ⟨G', hT, hd', hor⟩ := step_exists hinj hH hN hy hd hw hwk
        have : ∃ G'', ReflTransGen Tr G' G'' ∧ Done ρ H (k + 1) G'' ∧ ∀ w, G'' y w → k ≤ ρ w := by
          rcases hor with ⟨u, v, huv, hne, huv', hsub⟩ | ⟨hadj, z, hyz, hzk, hyz', hsub⟩
          · have hlt : (missing G').ncard < m := by
              rw [← hm]
              refine Set.ncard_lt_ncard ⟨fun p hp => ⟨hp.1, fun h => hp.2 (hsub _ _ h)⟩, fun h => ?_⟩ (Set.toFinite _)
              exact (h (show (u, v) ∈ missing G from ⟨hne, huv⟩)).2 huv'
            exact ihm _ hlt _ G' rfl rfl hd'
          · have hmE : missing G' = missing G := by
              ext p
              exact and_congr_right fun _ => not_congr (hadj p.1 p.2).symm
            have hlt : {w | G' y w}.ncard < c := by
              rw [← hc]
              exact Set.ncard_lt_ncard ⟨fun p hp => hsub p hp, fun h => hyz' (h hyz)⟩ (Set.toFinite _)
            exact ihc _ hlt G' (by rw [hmE, hm]) rfl hd'
        obtain ⟨G'', h1, h2, h3⟩ := this
        exact ⟨G'', .head hT h1, h2, h3⟩
      · push Not at hlow
        exact ⟨G, .refl, hd, hlow⟩

/-- A subgraph of an acyclic graph grows into it by additions. -/
theorem grow [Finite V] {K : V → V → Prop} (hK : Acyclic K) : ∀ m (G : V → V → Prop), {p : V × V | K p.1 p.2 ∧ ¬ G p.1 p.2}.ncard = m →
    (∀ a b, G a b → K a b) → ReflTransGen Tr G K := by
  intro m
  induction m using Nat.strong_induction_on with
  | _ m ih =>
    intro G hm hsub
    by_cases h : ∃ x y, K x y ∧ ¬ G x y
    · obtain ⟨x, y, hxy, hn⟩ := h
      have hsub' : ∀ a b, plus G x y a b → K a b := by
        rintro a b (h | ⟨rfl, rfl⟩)
        · exact hsub a b h
        · exact hxy
      have hac : Acyclic (plus G x y) := fun a ha => hK a (TransGen.mono (fun _ _ h => hsub' _ _ h) _ _ ha)
      refine .head (Or.inr ⟨x, y, ?_, hac, rfl⟩) (ih _ ?_ _ rfl hsub')
      · rintro (h | h)
        · exact hn h
        · exact hK.asymm hxy (hsub _ _ h)
      · rw [← hm]
        refine Set.ncard_lt_ncard ⟨fun p hp => ⟨hp.1, fun h => hp.2 (Or.inl h)⟩, fun h => ?_⟩ (Set.toFinite _)
        exact (h (show (x, y) ∈ {p : V × V | K p.1 p.2 ∧ ¬ G p.1 p.2} from ⟨hxy, hn⟩)).2 (Or.inr ⟨rfl, rfl⟩)
    · push Not at h
      have : G = K := by
        funext a b
        exact propext ⟨hsub a b, h a b⟩
      rw [this]

/-- Finishing the node of rank `k`. -/
theorem finish_node [Finite V] (hinj : ∀ a b, ρ a = ρ b → a = b) (hH : ∀ a b, H a b → ρ a < ρ b) {N : Nat} (hN : ∀ v, ρ v < N) {k : Nat} {y : V} (hy : ρ y = k)
    (hd : Done ρ H (k + 1) G) (hlow : ∀ w, G y w → k ≤ ρ w) : ∃ G', ReflTransGen Tr G G' ∧ Done ρ H k G' := by
  classical
  have hG := hd.acyclic
  have hHac := acyclic_of_rank hH
  have rk : ∀ {v}, v ≠ y → k ≤ ρ v → k + 1 ≤ ρ v := fun {v} h1 h2 => by
    have : ρ v ≠ k := fun e => h1 (hinj _ _ (e.trans hy.symm))
    omega
  have hkids : ∀ w, G y w → k + 1 ≤ ρ w := fun w h => rk (hG.ne_of_adj (Or.inl h)).symm (hlow w h)
  have hpar : ∀ a, G a y → H a y := fun a h => by
    have hak : ρ a < k := by
      by_contra hc
      have h1 := rk (hG.ne_of_adj (Or.inl h)) (by omega)
      have := hd.up _ _ h h1
      omega
    rcases hd.imap.adj hHac hG (Or.inl h) with h' | h'
    · exact h'
    · have := hH _ _ h'
      omega
  let K : V → V → Prop := fun a b => (b ≠ y ∧ G a b) ∨ (b = y ∧ H a y)
  have hsub : ∀ a b, G a b → K a b := fun a b h => by
    by_cases hb : b = y
    · subst hb
      exact Or.inr ⟨rfl, hpar a h⟩
    · exact Or.inl ⟨hb, h⟩
  have up : ∀ a b, K a b → k ≤ ρ a → k ≤ ρ b := by
    rintro a b (⟨hb, h⟩ | ⟨rfl, h⟩) ha
    · by_cases hay : a = y
      · subst hay
        exact hlow b h
      · have := hd.up a b h (rk hay ha)
        omega
    · omega
  have par : ∀ v p, k ≤ ρ v → (K p v ↔ H p v) := by
    intro v p hv
    by_cases hvy : v = y
    · subst hvy
      exact ⟨fun h => (h.resolve_left fun h => h.1 rfl).2, fun h => Or.inr ⟨rfl, h⟩⟩
    · rw [← hd.par v p (rk hvy hv)]
      exact ⟨fun h => (h.resolve_right fun h => hvy h.1).2, fun h => Or.inl ⟨hvy, h⟩⟩
  have hK : Acyclic K := by
    obtain ⟨r, hr⟩ := hG.exists_rank
    obtain ⟨M, hM⟩ := (Set.finite_range r).bddAbove
    have hM' : ∀ v, r v ≤ M := fun v => hM ⟨v, rfl⟩
    refine acyclic_of_rank (ρ := fun v => if k + 1 ≤ ρ v then M + 2 + r v else if v = y then M + 1 else r v) ?_
    rintro a b (⟨hb, h⟩ | ⟨rfl, h⟩)
    · have h1 := hr _ _ h
      have h2 := hd.up a b h
      have h3 := hM' a
      by_cases hay : a = y
      · subst hay
        have := hkids b h
        rw [if_pos this, if_neg (by omega), if_pos rfl]
        omega
      · rw [if_neg hay, if_neg hb]
        by_cases ha : k + 1 ≤ ρ a
        · rw [if_pos ha, if_pos (h2 ha)]
          omega
        · rw [if_neg ha]
          split <;> omega
    · have h1 := hH _ _ h
      have h3 := hM' a
      rw [if_neg (by omega), if_neg (by omega : ¬ k + 1 ≤ ρ b), if_pos rfl, if_neg (fun e : a = b => hHac.irrefl b (e ▸ h))]
      omega
  refine ⟨K, grow hK _ _ rfl hsub, hK, imap_of_local hK hinj hH hN fun i j hij hn => ?_, par, up⟩
  by_cases hi : k ≤ ρ i
  · exact local_done hK hH par up hi hij hn
  · refine dSep_of_same_above hG hK (fun h => hHac.irrefl i h) hn (hd.imap.local hH hij hn) ?_
    rintro m ⟨t, ht, hp⟩ p (h | ⟨rfl, h⟩)
    · exact h.2
    · exfalso
      have h1 : k ≤ ρ t := by
        clear ht
        induction hp with
        | refl => omega
        | tail _ h' ih => exact up _ _ h' ih
      have h2 : ρ t ≤ ρ i := by
        rcases ht with (rfl | rfl) | ht
        · exact le_rfl
        · exact hij.le
        · exact (hH _ _ ht).le
      omega

/-- **Meek and Chickering.** An acyclic graph turns into any of its acyclic independence maps by covered reversals and additions. -/
theorem meek_chickering [Finite V] (hG : Acyclic G) (hH : Acyclic H) (h : IMap G H) : ReflTransGen Tr G H := by
  classical
  obtain ⟨r, hr⟩ := hH.exists_rank
  obtain ⟨n, ⟨e⟩⟩ := Finite.exists_equiv_fin V
  let ρ : V → Nat := fun v => r v * n + e v
  have hlt : ∀ {a b : V}, r a < r b → ρ a < ρ b := fun {a b} hab => by
    have h1 := (e a).2
    have h2 : (r a + 1) * n ≤ r b * n := Nat.mul_le_mul_right n hab
    simp only [ρ]
    rw [Nat.add_mul] at h2
    omega
  have hρ : ∀ a b, H a b → ρ a < ρ b := fun a b hab => hlt (hr _ _ hab)
  have hinj : ∀ a b, ρ a = ρ b → a = b := fun a b hab => by
    have : r a = r b := by
      rcases Nat.lt_trichotomy (r a) (r b) with h' | h' | h'
      · have := hlt h'; omega
      · exact h'
      · have := hlt h'; omega
    simp only [ρ, this] at hab
    exact e.injective (Fin.ext (by omega))
  obtain ⟨M, hM⟩ := (Set.finite_range ρ).bddAbove
  have hN : ∀ v, ρ v < M + 1 := fun v => Nat.lt_succ_of_le (hM ⟨v, rfl⟩)
  have key : ∀ d, d ≤ M + 1 → ∃ G', ReflTransGen Tr G G' ∧ Done ρ H (M + 1 - d) G' := by
    intro d
    induction d with
    | zero =>
      intro _
      exact ⟨G, .refl, hG, h, fun v p hv => absurd (hN v) (by omega), fun a b _ ha => absurd (hN a) (by omega)⟩
    | succ d ih =>
      intro hd
      obtain ⟨G1, h1, h2⟩ := ih (by omega)
      have hk : M + 1 - d = (M + 1 - (d + 1)) + 1 := by omega
      rw [hk] at h2
      generalize M + 1 - (d + 1) = k at h2 ⊢
      by_cases hy : ∃ y, ρ y = k
      · obtain ⟨y, hy⟩ := hy
        obtain ⟨G2, h3, h4, h5⟩ := clear_low hinj hρ hN hy _ _ G1 rfl rfl h2
        obtain ⟨G3, h6, h7⟩ := finish_node hinj hρ hN hy h4 h5
        exact ⟨G3, (h1.trans h3).trans h6, h7⟩
      · have hk : ∀ {v}, k ≤ ρ v → k + 1 ≤ ρ v := fun {v} hv => by
          have : ρ v ≠ k := fun e => hy ⟨v, e⟩
          omega
        exact ⟨G1, h1, h2.acyclic, h2.imap, fun v p hv => h2.par v p (hk hv), fun a b hab ha => by have := h2.up a b hab (hk ha); omega⟩
  obtain ⟨G', h1, h2⟩ := key (M + 1) le_rfl
  have : G' = H := by
    funext a b
    exact propext (h2.par b a (by omega))
  exact this ▸ h1

/-- If `H` is an independence map of `G` that is not Markov equivalent to it, some graph equivalent to `H` has an edge that can be dropped. -/
theorem imap_equiv_or_drop [Finite V] (hG : Acyclic G) (hH : Acyclic H) (h : IMap G H) :
    MarkovEquiv G H ∨ ∃ F x y, Acyclic F ∧ MarkovEquiv F H ∧ F x y ∧ IMap G (fun a b => F a b ∧ ¬ (a = x ∧ b = y)) := by
  have hrun := meek_chickering hG hH h
  have inv : ∀ K, ReflTransGen Tr G K → Acyclic K ∧ IMap G K ∧
      (MarkovEquiv G K ∨ ∃ F x y, Acyclic F ∧ MarkovEquiv F K ∧ F x y ∧ IMap G (fun a b => F a b ∧ ¬ (a = x ∧ b = y))) := by
    intro K hK
    induction hK with
    | refl => exact ⟨hG, IMap.refl G, Or.inl (MarkovEquiv.refl _)⟩
    | @tail K K' _ hs ih =>
      obtain ⟨hK, hI, hor⟩ := ih
      refine ⟨hs.acyclic hK, hI.trans (hs.imap hK), ?_⟩
      rcases hs with ⟨x, y, hc, rfl⟩ | ⟨x, y, hn, hac, rfl⟩
      · have he := flip'_equiv hK hc
        rcases hor with hor | ⟨F, a, b, h1, h2, h3, h4⟩
        · exact Or.inl (MarkovEquiv.trans hor he)
        · exact Or.inr ⟨F, a, b, h1, MarkovEquiv.trans h2 he, h3, h4⟩
      · refine Or.inr ⟨plus K x y, x, y, hac, MarkovEquiv.refl _, Or.inr ⟨rfl, rfl⟩, ?_⟩
        have : (fun a b => plus K x y a b ∧ ¬ (a = x ∧ b = y)) = K := by
          funext a b
          refine propext ⟨fun h => h.1.resolve_right h.2, fun h => ⟨Or.inl h, ?_⟩⟩
          rintro ⟨rfl, rfl⟩
          exact hn (Or.inl h)
        rw [this]
        exact hI
  exact (inv H hrun).2.2

end Spec
