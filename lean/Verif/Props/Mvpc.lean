import Verif.Proofs.Mvpc
import Verif.Proofs.DSepDecide
import Verif.Proofs.IMap
import Mathlib.Data.Finset.Card
import Mathlib.Data.Fintype.Card

/-!
# C93–C95: MVPC, PC with missing values
-/
namespace CL
namespace Mvpc
open GG Relation Spec
variable {n : Nat} {P : Type} [LinearOrder P]

/-! ## C93: parents of a missingness indicator -/

theorem complete_sound : Sound (GG.complete n) := by
  refine ⟨fun a => by rw [complete_spec.2.2]; simp, fun a b h => ?_⟩
  rw [complete_spec.2.2] at h
  simp at h
  rw [h]; exact ReflTransGen.refl

/-- **C93 (any test).** The search for the parents of an indicator ends; a variable left out was declared independent of the indicator
given some set of other variables, and a variable returned cannot be separated from it, according to the test, by any subset of the
other returned variables. -/
theorem C93_detect_any_test (stable : Bool) (ind : CI n) (hset : SetBased ind) (r : Fin n) :
    ∃ N, detectParent stable ind false r = some N ∧ N.Nodup ∧ r ∉ N ∧
      (∀ y, y ≠ r → y ∉ N → ∃ S : List (Fin n), S.Nodup ∧ r ∉ S ∧ y ∉ S ∧ (ind r y S = true ∨ ind y r S = true)) ∧
      ∀ y ∈ N, ∀ S : List (Fin n), S.Nodup → (∀ z ∈ S, z ∈ N ∧ z ≠ y) → ind r y S = false := by
  obtain ⟨s, h1, h2, -, h4⟩ := corrLoop_spec (stable := stable) ((perm2 (List.finRange n)).filter fun p => p.1 = r) (n + 1) 0
    (GG.complete n, fun _ _ => Option.none) (by omega) (by omega) (Cut.refl complete_spec.1.pd) complete_sound (by intro e he; omega)
    (ind := ind)
  refine ⟨s.1.neighbors r, by simp [detectParent, h1], nodup_neighbors _ _, ?_, ?_, ?_⟩
  · rw [mem_neighbors]; simp [h2.pd.diag]
  · intro y hy hn
    rw [mem_neighbors] at hn
    obtain ⟨S, hS⟩ := h2.just r y ((complete_spec.2.1 r y).2 hy.symm) (by simpa using hn)
    exact ⟨S, hS⟩
  · intro y hy S hnd hS
    have hy' := (mem_neighbors _ _ _).1 hy
    have hne : r ≠ y := by rintro rfl; exact hy' (h2.pd.diag r)
    refine passed_all hset h2.pd (fun e => h4 e (r, y) ?_) hy' S hnd fun z hz => ⟨(mem_neighbors _ _ _).1 (hS z hz).1, (hS z hz).2⟩
    rw [List.mem_filter, mem_allPairs2]
    exact ⟨hne, by simp⟩

/-- **C93.** If the test answers like d-separation in a DAG in which the missingness indicator causes nothing, the search returns exactly
the indicator's direct causes, in both modes. -/
theorem C93_detect_parents (stable : Bool) (D : Fin n → Fin n → Prop) (hac : Acyclic D) (ind : CI n) (ho : DSepOracle D ind) (r : Fin n)
    (hsink : ∀ y, ¬ D r y) : ∃ N, detectParent stable ind false r = some N ∧ ∀ y, y ∈ N ↔ D y r := by
  classical
  obtain ⟨N, h1, -, h3, h4, h5⟩ := C93_detect_any_test stable ind ho.setBased r
  have hpar : ∀ y, D y r → y ∈ N := by
    intro y hy
    by_contra hn
    have hne := hac.ne_of_adj (Or.inl hy : Adj D y r)
    obtain ⟨S, a1, a2, a3, a4⟩ := h4 y hne hn
    have := (DSepOracle.trueIndep ho).ind2 y r S ⟨a1, a3, a2, a4.symm⟩
    exact ind2_dsep hne this (dConn_of_adj hne (Or.inl hy))
  refine ⟨N, h1, fun y => ⟨fun hy => ?_, hpar y⟩⟩
  by_contra hn
  have hne : r ≠ y := by rintro rfl; exact h3 hy
  have hna : ¬ Adj D r y := by
    rintro (h | h)
    · exact hsink y h
    · exact hn h
  have hs := local_markov hac hne hna (fun h => by
    obtain ⟨c, hc, -⟩ := TransGen.head'_iff.1 h
    exact hsink c hc)
  have hm : ∀ p, p ∈ (List.finRange n).filter (fun p => decide (D p r)) ↔ D p r := by
    intro p; simp
  have hnd : ((List.finRange n).filter (fun p => decide (D p r))).Nodup := (List.nodup_finRange n).filter _
  have h6 := h5 y hy _ hnd fun z hz => ⟨hpar z ((hm z).1 hz), by rintro rfl; exact hn ((hm z).1 hz)⟩
  have h7 := (ho r y _ hne hnd (fun hv => hac.irrefl _ ((hm r).1 hv)) (fun hw => hn ((hm y).1 hw))).2 (by
    convert hs using 1
    ext p; exact hm p)
  rw [h6] at h7; simp at h7

/-- the whole list `prt_m` -/
theorem parentPairs_spec {stable : Bool} {t0 : Fin n → CI n} {const : Fin n → Bool} {R : Fin n → Fin n → Prop} (miss : List (Fin n))
    (h : ∀ i ∈ miss, ∃ N, detectParent stable (t0 i) (const i) i = some N ∧ ∀ y, y ∈ N ↔ R y i) :
    ∃ prt, parentPairs stable t0 const miss = some prt ∧ (prt.map Prod.fst).Sublist miss ∧
      (∀ e ∈ prt, ∀ y, y ∈ e.2 ↔ R y e.1) ∧ ∀ i ∈ miss, (∃ y, R y i) → ∃ e ∈ prt, e.1 = i := by
  induction miss with
  | nil => exact ⟨[], rfl, List.Sublist.refl _, by simp, by simp⟩
  | cons i is ih =>
    obtain ⟨prt, e1, e2, e3, e4⟩ := ih fun j hj => h j (by simp [hj])
    obtain ⟨N, n1, n2⟩ := h i (by simp)
    by_cases hN : N.length = 0
    · refine ⟨prt, by simp only [parentPairs, n1, e1, Option.bind_some, Option.map_some, if_pos hN], e2.trans (List.sublist_cons_self _ _), e3, ?_⟩
      intro j hj hex
      rcases List.mem_cons.1 hj with rfl | hj
      · obtain ⟨y, hy⟩ := hex
        have := (n2 y).2 hy
        rw [List.length_eq_zero_iff] at hN
        rw [hN] at this; simp at this
      · exact e4 j hj hex
    · refine ⟨(i, N) :: prt, by simp only [parentPairs, n1, e1, Option.bind_some, Option.map_some, if_neg hN], by simpa using e2, ?_, ?_⟩
      · intro e he
        rcases List.mem_cons.1 he with rfl | he
        · exact n2
        · exact e3 e he
      · intro j hj hex
        rcases List.mem_cons.1 hj with rfl | hj
        · exact ⟨_, List.mem_cons_self, rfl⟩
        · obtain ⟨e, he, h'⟩ := e4 j hj hex
          exact ⟨e, List.mem_cons_of_mem _ he, h'⟩

/-! ## C94: which variables the corrected test uses -/

/-- `p` is listed as a cause of the missingness of `v` -/
def Causes (m : PrtM n) (v p : Fin n) : Prop := ∃ ps, (v, ps) ∈ m ∧ p ∈ ps

theorem mem_unique (l : List (Fin n)) (v : Fin n) : v ∈ unique l ↔ v ∈ l := by simp [unique]

theorem unique_nodup (l : List (Fin n)) : (unique l).Nodup := (List.nodup_finRange n).filter _

theorem mem_prtOf {m : PrtM n} (hm : (m.map Prod.fst).Nodup) (v p : Fin n) : p ∈ prtOf m v ↔ Causes m v p := by
  unfold prtOf Causes
  induction m with
  | nil => simp
  | cons e m ih =>
    rw [List.map_cons, List.nodup_cons] at hm
    obtain ⟨e1, e2⟩ := e
    rw [List.find?_cons]
    by_cases hv : e1 = v
    · subst hv
      simp only [decide_true, Option.map_some, Option.getD_some, List.mem_cons, Prod.mk.injEq, true_and]
      constructor
      · exact fun h => ⟨e2, Or.inl rfl, h⟩
      · rintro ⟨ps, rfl | h, hp⟩
        · exact hp
        · exact absurd (List.mem_map.2 ⟨_, h, rfl⟩) hm.1
    · rw [show decide ((e1, e2).1 = v) = false by simpa using hv]
      dsimp only
      rw [ih hm.2]
      simp only [List.mem_cons, Prod.mk.injEq]
      constructor
      · rintro ⟨ps, h, hp⟩; exact ⟨ps, Or.inr h, hp⟩
      · rintro ⟨ps, ⟨rfl, -⟩ | h, hp⟩
        · exact absurd rfl hv
        · exact ⟨ps, h, hp⟩

theorem mem_prtMvars {m : PrtM n} (hm : (m.map Prod.fst).Nodup) (var : List (Fin n)) (p : Fin n) :
    p ∈ prtMvars m var ↔ ∃ v ∈ var, Causes m v p := by
  unfold prtMvars
  rw [mem_unique, List.mem_flatMap]
  refine exists_congr fun v => and_congr_right fun _ => ?_
  rw [← mem_prtOf hm]
  split
  · rfl
  · rename_i h
    constructor
    · simp
    · intro hp
      rw [mem_prtOf hm] at hp
      obtain ⟨ps, h1, -⟩ := hp
      exact absurd (List.any_eq_true.2 ⟨_, h1, by simp⟩) h

theorem prtMwLoop_spec {m : PrtM n} (hm : (m.map Prod.fst).Nodup) (f : Nat) (W : List (Fin n)) (hf : n < f + W.toFinset.card) (hf0 : 0 < f) :
    ∃ U, prtMwLoop m f W = some U ∧ U.Nodup ∧ ∀ u, u ∈ U ↔ ∃ w ∈ W, ReflTransGen (Causes m) w u := by
  induction f generalizing W with
  | zero => omega
  | succ f ih =>
    rw [prtMwLoop]
    by_cases hc : ((prtMvars m W).filter fun v => v ∉ W).length > 0
    · rw [if_pos hc]
      obtain ⟨v, hv⟩ := List.exists_mem_of_length_pos hc
      rw [List.mem_filter, mem_prtMvars hm] at hv
      obtain ⟨⟨w0, hw0, hwv⟩, hvW⟩ := hv
      have hvW : v ∉ W := by simpa using hvW
      have hsub : W.toFinset ⊂ (unique (W ++ prtMvars m W)).toFinset := by
        rw [Finset.ssubset_iff_of_subset]
        · exact ⟨v, by rw [List.mem_toFinset, mem_unique, List.mem_append, mem_prtMvars hm]; exact Or.inr ⟨w0, hw0, hwv⟩, by simpa using hvW⟩
        · intro x hx
          rw [List.mem_toFinset] at hx ⊢
          rw [mem_unique, List.mem_append]; exact Or.inl hx
      have hlt := Finset.card_lt_card hsub
      have hle : (unique (W ++ prtMvars m W)).toFinset.card ≤ n := by
        have := Finset.card_le_univ (unique (W ++ prtMvars m W)).toFinset
        simpa using this
      obtain ⟨U, h1, h2, h3⟩ := ih (unique (W ++ prtMvars m W)) (by omega) (by omega)
      refine ⟨U, h1, h2, fun u => ?_⟩
      rw [h3]
      constructor
      · rintro ⟨w, hw, hu⟩
        rw [mem_unique, List.mem_append, mem_prtMvars hm] at hw
        rcases hw with hw | ⟨w', hw', hc'⟩
        · exact ⟨w, hw, hu⟩
        · exact ⟨w', hw', ReflTransGen.head hc' hu⟩
      · rintro ⟨w, hw, hu⟩
        exact ⟨w, by rw [mem_unique, List.mem_append]; exact Or.inl hw, hu⟩
    · rw [if_neg hc]
      refine ⟨unique W, rfl, unique_nodup W, fun u => ?_⟩
      rw [mem_unique]
      constructor
      · exact fun h => ⟨u, h, ReflTransGen.refl⟩
      · rintro ⟨w, hw, hu⟩
        induction hu with
        | refl => exact hw
        | @tail b c _ hbc ih =>
          by_contra hn
          apply hc
          apply List.length_pos_of_mem (a := c)
          rw [List.mem_filter, mem_prtMvars hm]
          exact ⟨⟨b, ih, hbc⟩, by simpa using hn⟩

theorem transGen_iff {m : PrtM n} (var : List (Fin n)) (u : Fin n) :
    (∃ v ∈ var, TransGen (Causes m) v u) ↔ ∃ w, (∃ v ∈ var, Causes m v w) ∧ ReflTransGen (Causes m) w u := by
  constructor
  · rintro ⟨v, hv, h⟩
    obtain ⟨w, h1, h2⟩ := TransGen.head'_iff.1 h
    exact ⟨w, ⟨v, hv, h1⟩, h2⟩
  · rintro ⟨w, ⟨v, hv, h1⟩, h2⟩
    exact ⟨v, hv, TransGen.head'_iff.2 ⟨w, h1, h2⟩⟩

/-- **C94.** How the corrected test of `x` and `y` given `S` chooses its correction variables (`m` lists the causes of missingness, one
entry per indicator; `skel` is the skeleton it is given). It always decides. It corrects exactly when `x` and `y` have a common neighbour
that causes the missingness of a variable in the test, and some variable outside the test causes, directly or through the missingness of
other such variables, the missingness of a variable in the test; the correction variables are then exactly those variables, without
repetition. Otherwise the uncorrected test is used. -/
theorem C94_correction_variables (m : PrtM n) (hm : (m.map Prod.fst).Nodup) (skel : GG n) (x y : Fin n) (S : List (Fin n)) :
    ∃ plan, mcPlan m skel x y S = some plan ∧
      (plan ≠ none ↔ (∃ c, skel.g x c ≠ .null ∧ skel.g y c ≠ .null ∧ ∃ v ∈ x :: y :: S, Causes m v c) ∧
        ∃ w, w ∉ x :: y :: S ∧ ∃ v ∈ x :: y :: S, TransGen (Causes m) v w) ∧
      ∀ W, plan = some W → W.Nodup ∧ ∀ w, w ∈ W ↔ w ∉ x :: y :: S ∧ ∃ v ∈ x :: y :: S, TransGen (Causes m) v w := by
  generalize hvar : x :: y :: S = var
  have hcond : condPermC m skel x y S = true ↔ ∃ c, skel.g x c ≠ .null ∧ skel.g y c ≠ .null ∧ ∃ v ∈ var, Causes m v c := by
    unfold condPermC
    rw [hvar, Bool.and_eq_true, List.any_eq_true, List.any_eq_true]
    simp only [List.mem_filter, List.mem_finRange, true_and, Bool.and_eq_true, bne_iff_ne, decide_eq_true_eq, mem_prtMvars hm]
    constructor
    · rintro ⟨-, c, ⟨h1, h2⟩, h3⟩; exact ⟨c, h1, h2, h3⟩
    · rintro ⟨c, h1, h2, v, hv, hc⟩
      obtain ⟨ps, hps, hp⟩ := hc
      exact ⟨⟨v, hv, List.any_eq_true.2 ⟨_, hps, by simp⟩⟩, c, ⟨h1, h2⟩, v, hv, ps, hps, hp⟩
  unfold mcPlan
  rw [hvar]
  by_cases hc : condPermC m skel x y S = true
  · rw [if_pos hc]
    have hc' := hcond.1 hc
    obtain ⟨c, -, -, v, hv, hvc⟩ := id hc'
    have hne : ¬ (prtMvars m var).length = 0 := by
      have := List.length_pos_of_mem ((mem_prtMvars hm var c).2 ⟨v, hv, hvc⟩)
      omega
    rw [if_neg hne]
    obtain ⟨U, h1, h2, h3⟩ := prtMwLoop_spec hm (n + 1) (prtMvars m var) (by omega) (by omega)
    have hU : ∀ w, w ∈ U.filter (fun v => v ∉ var) ↔ w ∉ var ∧ ∃ v ∈ var, TransGen (Causes m) v w := by
      intro w
      rw [List.mem_filter, h3, transGen_iff, and_comm]
      refine and_congr (by simp) (exists_congr fun u => and_congr_left fun _ => mem_prtMvars hm var u)
    unfold prtMw
    rw [h1]
    refine ⟨_, rfl, ?_, ?_⟩
    · dsimp only
      split
      · rename_i h0
        rw [List.length_eq_zero_iff] at h0
        constructor
        · intro h; exact absurd rfl h
        · rintro ⟨-, w, hw⟩
          have := (hU w).2 hw
          rw [h0] at this; simp at this
      · rename_i h0
        obtain ⟨w, hw⟩ := List.exists_mem_of_length_pos (Nat.pos_of_ne_zero h0)
        exact ⟨fun _ => ⟨hc', w, (hU w).1 hw⟩, fun _ => by simp⟩
    · intro W hW
      dsimp only at hW
      split at hW
      · simp at hW
      · cases hW
        exact ⟨h2.filter _, hU⟩
  · rw [if_neg hc]
    refine ⟨none, rfl, ?_, by simp⟩
    constructor
    · intro h; exact absurd rfl h
    · rintro ⟨h, -⟩; exact absurd (hcond.2 h) hc

/-- `0` is missing depending on `2`, `2` is missing depending on `3`: a test of `0` and `1`, both adjacent to `2`, is corrected with
`2` and `3`; with `2` in the conditioning set only `3` is left; without common neighbours nothing is corrected. -/
def exM : PrtM 4 := [(0, [2]), (2, [3])]

def exSkel : GG 4 := (((GG.empty 4).addEdge (mkEdge 0 2 .tail .tail)).2.addEdge (mkEdge 1 2 .tail .tail)).2

example : (exM.map Prod.fst).Nodup ∧ mcPlan exM exSkel 0 1 [] = some (some [2, 3]) ∧ mcPlan exM exSkel 0 1 [2] = some (some [3]) ∧
    mcPlan exM exSkel 0 3 [] = some none ∧ mcPlan exM (GG.empty 4) 0 1 [] = some none := by decide +kernel

/-! ## C95: MVPC -/

theorem orient_class {D : Fin n → Fin n → Prop} (hac : Acyclic D) {T : TestFn n P} (zero : P) (ho : DSepOracle D T.ind) (ucRule : Nat)
    (hr : ucRule ≤ 2) (prio : Option Nat) {k : Know n} (hk : k.TrueOf D) {G : GG n} {sep : Sep n} (hs : Sound G)
    (hF : ∀ F, Acyclic F → MarkovEquiv D F → k.TrueOf F → PInv F G)
    (hsep : ucRule = 0 → (∀ x z, x ≠ z → G.g x z = .null → (sep x z).isSome) ∧
      ∀ x y z, x ≠ z → Adj D x y → Adj D z y → ¬ Adj D x z → (sepAvoids sep (x, y, z) = true ↔ Collider D x y z)) :
    ∃ H, orient T zero ucRule prio k G sep = some (.graph H) ∧ ∀ F, Acyclic F → MarkovEquiv D F → k.TrueOf F → PCCorrect F H := by
  have hG : PInv D G := hF D hac ⟨fun _ _ => Iff.rfl, fun _ _ _ => Iff.rfl⟩ hk
  have key : ∀ K : GG n, MInv D K → (∀ F, Acyclic F → MarkovEquiv D F → k.TrueOf F → MInv F K) → ∃ H, meek k K = some H ∧
      ∀ F, Acyclic F → MarkovEquiv D F → k.TrueOf F → PCCorrect F H := by
    intro K hK hKF
    obtain ⟨H, e1, -⟩ := meek_oracle hac hk hK
    refine ⟨H, e1, fun F hF he hkF => ?_⟩
    obtain ⟨H', e1', e2', -, e4'⟩ := meek_oracle hF hkF (hKF F hF he hkF)
    rw [e1] at e1'
    cases e1'
    exact e2'.correct hF e4'
  unfold orient
  by_cases r0 : ucRule = 0
  · rw [if_pos r0]
    obtain ⟨s1, s2⟩ := hsep r0
    have hraise : ucRaises k G sep = false := by
      rw [Bool.eq_false_iff]
      intro hc
      unfold ucRaises at hc
      obtain ⟨⟨x, y, z⟩, ht, h2⟩ := List.any_eq_true.1 hc
      obtain ⟨hlt, -, -, hn⟩ := (mem_orderedUT hG.pd x y z).1 ht
      have := s1 x z hlt.ne hn
      simp only [Bool.and_eq_true] at h2
      obtain ⟨v, hv⟩ := Option.isSome_iff_exists.1 this
      rw [hv] at h2
      simp at h2
    rw [hraise, if_neg (by simp)]
    have hd := ucSepset_done hac hk T (prio.getD 3) hG hs sep s2
    obtain ⟨H, e1, e2⟩ := key _ hd.minv fun F hF' he hkF => (hd.transfer he (hF F hF' he hkF)).minv
    exact ⟨H, by rw [e1]; rfl, e2⟩
  · rw [if_neg r0]
    by_cases r1 : ucRule = 1
    · rw [if_pos r1]
      have hd := maxp_done hac hk ho (prio.getD 3) hG hs
      obtain ⟨H, e1, e2⟩ := key _ hd.minv fun F hF' he hkF => (hd.transfer he (hF F hF' he hkF)).minv
      exact ⟨H, by rw [e1]; rfl, e2⟩
    · rw [if_neg r1, if_pos (by omega)]
      have hd := definiteMaxp_done hac hk ho zero (prio.getD 4) hG hs
      obtain ⟨H, e1, e2, -⟩ := definiteMeek_oracle (k := k) hac hd
      rw [e1]
      obtain ⟨H', e3, e4⟩ := key H e2 fun F hF' he hkF => by
        obtain ⟨H', e1', e2', -⟩ := definiteMeek_oracle (k := k) hF' (hd.transfer he (hF F hF' he hkF))
        rw [e1] at e1'
        cases e1'
        exact e2'
      exact ⟨H', by simp [e3], e4⟩

/-- What is assumed about a run of MVPC on data from the DAG `D`, where `R y i` says that `y` directly causes the missingness of `i`:
the tests for indicator `i` answer like d-separation in a DAG where the indicator is a sink with exactly those parents; an independence
reported with test-wise deletion is a d-separation (it may miss some: deletion conditions on the indicators); and the corrected test,
once it is given the right causes of missingness and a skeleton containing that of `D`, answers like d-separation. -/
structure Assumptions (D R : Fin n → Fin n → Prop) (T : Tests n P) (miss : List (Fin n)) (const : Fin n → Bool) : Prop where
  varies : ∀ i ∈ miss, const i = false
  indicator : ∀ i ∈ miss, ∃ E : Fin n → Fin n → Prop, Acyclic E ∧ (∀ y, ¬ E i y) ∧ (∀ y, E y i ↔ R y i) ∧ DSepOracle E (T.t0 i)
  deletion : TrueIndep D T.t1
  corrected : ∀ prt K, (prt.map Prod.fst).Sublist miss → (∀ e ∈ prt, ∀ y, y ∈ e.2 ↔ R y e.1) →
    (∀ i ∈ miss, (∃ y, R y i) → ∃ e ∈ prt, e.1 = i) → (∀ a b, Adj D a b → K.g a b ≠ .null) → DSepOracle D (T.t2 prt K).ind

theorem mvpc_class {D R : Fin n → Fin n → Prop} (hac : Acyclic D) {T : Tests n P} (zero : P) {miss : List (Fin n)} {const : Fin n → Bool}
    (ha : Assumptions D R T miss const) (stable : Bool) (ucRule : Nat) (hr : ucRule ≤ 2) (prio : Option Nat) (k : Know n)
    (hk : k.TrueOf D) (h0 : ucRule = 0 → stable = true ∧ ∀ a b, ¬ (k.forb a b = true ∧ k.forb b a = true)) :
    ∃ H, mvpcAlg T zero miss const stable ucRule prio k = some (.graph H) ∧
      ∀ F, Acyclic F → MarkovEquiv D F → k.TrueOf F → PCCorrect F H := by
  obtain ⟨prt, p1, p2, p3, p4⟩ := parentPairs_spec (stable := stable) (t0 := T.t0) (const := const) (R := R) miss (fun i hi => by
    obtain ⟨E, e1, e2, e3, e4⟩ := ha.indicator i hi
    obtain ⟨N, n1, n2⟩ := C93_detect_parents stable E e1 (T.t0 i) e4 i e2
    exact ⟨N, by rw [ha.varies i hi]; exact n1, fun y => (n2 y).trans (e3 y)⟩)
  obtain ⟨s, s1, hi, -⟩ := skeleton_spec stable T.t1 k
  have hsS : Sound s.1 := by
    refine ⟨fun a => by rw [hi.dp]; simp, fun a b hab => ?_⟩
    rw [hi.dp] at hab
    simp at hab
    rw [hab]; exact ReflTransGen.refl
  have hsup : ∀ a b, Adj D a b → s.1.g a b ≠ .null := by
    intro a b hab hn
    have hne := hac.ne_of_adj hab
    obtain ⟨L, -, ⟨S, -, S', -, hS'⟩ | hb⟩ := hi.good a b hne hn
    · exact ind2_dsep hne (ha.deletion.ind2 a b S' hS') (dConn_of_adj hne hab)
    · simp only [Know.ban, Bool.and_eq_true] at hb
      exact hab.elim (hk.forb _ _ hb.1) (hk.forb _ _ hb.2)
  obtain ⟨g1, g2, -⟩ := orientByBk_spec (k := k) hi.und.pd hsS
  have g3 := fun a b => orientByBk_cases (k := k) hi.und.pd hsS a b
  have hsup1 : ∀ a b, Adj D a b → (orientByBk k s.1).g a b ≠ .null := fun a b hab => fun hn => hsup a b hab ((g3 a b).1.1 hn)
  have ho := ha.corrected prt (orientByBk k s.1) p2 p3 p4 hsup1
  obtain ⟨r, c1, c2, c3, c4, c5, c6⟩ := correction_oracle hac ho stable (orientByBk k s.1, s.2) g1 g2 hsup1
  have hrF : ∀ F, Acyclic F → MarkovEquiv D F → k.TrueOf F → PInv F r.1 := by
    intro F hF he hkF
    refine ⟨c2, fun a b => (c4 a b).trans (he.1 a b), fun a b hab => ?_⟩
    have hadj : Adj F a b := ((c4 b a).trans (he.1 b a)).1 (by rw [hab]; simp) |>.symm
    have hab1 : (orientByBk k s.1).g b a = .arrow := by
      rcases c5 b a with e | e
      · rw [e] at hab; simp at hab
      · rw [← e]; exact hab
    have hne : s.1.g b a ≠ .null := fun hn => by rw [(g3 b a).1.2 hn] at hab1; simp at hab1
    have ht : s.1.g b a = .tail := (hi.und.mark b a).resolve_left hne
    have ht' : s.1.g a b = .tail := by rw [hi.und.symm]; exact ht
    rcases (g3 b a).2.2 ht ht' with h | ⟨h, -⟩ | ⟨-, h⟩
    · rw [h.1] at hab1; simp at hab1
    · rw [h.1] at hab1; simp at hab1
    · rcases h with h | h
      · exact hadj.resolve_right (hkF.forb _ _ h)
      · exact hkF.req _ _ h.2
  have hrD := hrF D hac ⟨fun _ _ => Iff.rfl, fun _ _ _ => Iff.rfl⟩ hk
  obtain ⟨q1, q2⟩ := PInv.orientByBk hk hrD c3
  obtain ⟨H, e1, e2⟩ := orient_class hac (T := T.t2 prt (orientByBk k s.1)) zero ho ucRule hr prio hk (G := orientByBk k r.1) (sep := r.2) q2
    (fun F hF he hkF => (PInv.orientByBk hkF (hrF F hF he hkF) c3).1) (by
      intro hu
      obtain ⟨hst, hban⟩ := h0 hu
      have hS0 : SInv (dsepCI D) k ⟨orientByBk k s.1, s.2, []⟩ := by
        refine ⟨g1, hi.symm, SepSound.mono ha.deletion.ind2 hi.sound, ?_, by simp⟩
        intro a b hab hor
        have : (orientByBk k s.1).g a b = .null := by simpa using hor
        exact SepGood.mono ha.deletion.ind2 (hi.good a b hab ((g3 a b).1.1 this))
      have hS := c6 k hst hS0
      have hnull : ∀ x z, ¬ Adj D x z → r.1.g x z = .null := fun x z hn => by
        by_contra hc; exact hn ((c4 x z).1 hc)
      refine ⟨fun x z hxz hn => ?_, fun x y z hxz hxy hzy hna => ?_⟩
      · have hn' : ¬ Adj D x z := fun hc => (q1.adj x z).2 hc hn
        obtain ⟨L, hL, -⟩ := hS.good x z hxz (Or.inl (hnull x z hn'))
        have hL' : r.2 x z = some L := hL
        rw [hL']; rfl
      · exact sepAvoids_iff hac hban hS.sound hxz hxy hzy (hS.good x z hxz (Or.inl (hnull x z hna))))
  refine ⟨H, ?_, e2⟩
  unfold mvpcAlg
  rw [p1]
  simp only [Option.bind_some]
  rw [s1]
  simp only [Option.bind_some]
  rw [c1]
  simp only [Option.bind_some]
  exact e1

/-- **C95, what holds.** Under `Assumptions`, with the default `stable=True` or with the collider rules 1 and 2, MVPC returns the
essential graph of `D`: same adjacencies; `a → b` exactly when every DAG with the skeleton and v-structures of `D` has it; all other
edges undirected. Missing: `stable=False` with `uc_rule=0`, where the program crashes (`C95_unstable_violated`). -/
theorem C95_mvpc_partial (D R : Fin n → Fin n → Prop) (hac : Acyclic D) (T : Tests n P) (zero : P) (miss : List (Fin n))
    (const : Fin n → Bool) (ha : Assumptions D R T miss const) (stable : Bool) (ucRule : Nat) (hr : ucRule ≤ 2) (prio : Option Nat)
    (h0 : ucRule = 0 → stable = true) :
    ∃ H, mvpcAlg T zero miss const stable ucRule prio Know.none = some (.graph H) ∧ ∀ a b, (H.g a b = .null ↔ ¬ Adj D a b) ∧
      (H.Arrow a b ↔ Compelled D a b) ∧
      ((H.g a b = .tail ∧ H.g b a = .tail) ↔ Adj D a b ∧ ¬ Compelled D a b ∧ ¬ Compelled D b a) := by
  have hk : ∀ F : Fin n → Fin n → Prop, (Know.none : Know n).TrueOf F := fun F => ⟨by simp [Know.none], by simp [Know.none]⟩
  obtain ⟨H, e, hc⟩ := mvpc_class hac zero ha stable ucRule hr prio Know.none (hk D) (fun h => ⟨h0 h, by simp [Know.none]⟩)
  have hD := hc D hac ⟨fun _ _ => Iff.rfl, fun _ _ _ => Iff.rfl⟩ (hk D)
  have harr : ∀ a b, H.Arrow a b ↔ Compelled D a b := by
    intro a b
    constructor
    · exact fun h => ⟨hD.directed a b h, fun F hF he => (hc F hF he (hk F)).directed a b h⟩
    · exact fun h => hD.meek hac ((compelled_iff_meek hac a b).1 h)
  refine ⟨H, e, fun a b => ⟨?_, harr a b, ?_⟩⟩
  · rw [← hD.skeleton]; simp
  · rw [← harr, ← harr]
    constructor
    · rintro ⟨h1, h2⟩
      refine ⟨(hD.skeleton a b).1 (by simp [h1]), fun h => ?_, fun h => ?_⟩
      · rw [h.2] at h2; simp at h2
      · rw [h.2] at h1; simp at h1
    · rintro ⟨h1, h2, h3⟩
      exact ((hD.kinds a b h1).resolve_left h2).resolve_left h3

/-- **C95 with background knowledge** that is true of `D`: the right skeleton, every edge compelled by the class alone is directed, and
an edge is directed only if all DAGs of the class for which the knowledge is true agree on it. -/
theorem C95_with_knowledge_partial (D R : Fin n → Fin n → Prop) (hac : Acyclic D) (T : Tests n P) (zero : P) (miss : List (Fin n))
    (const : Fin n → Bool) (ha : Assumptions D R T miss const) (stable : Bool) (ucRule : Nat) (hr : ucRule ≤ 2) (prio : Option Nat)
    (k : Know n) (hk : (∀ a b, k.forb a b = true → ¬ D a b) ∧ ∀ a b, k.req a b = true → D a b)
    (h0 : ucRule = 0 → stable = true ∧ ∀ a b, ¬ (k.forb a b = true ∧ k.forb b a = true)) :
    ∃ H, mvpcAlg T zero miss const stable ucRule prio k = some (.graph H) ∧ (∀ a b, H.g a b = .null ↔ ¬ Adj D a b) ∧
      (∀ a b, Compelled D a b → H.Arrow a b) ∧
      (∀ a b, H.Arrow a b → ∀ F, Acyclic F → MarkovEquiv D F → (∀ a b, k.forb a b = true → ¬ F a b) →
        (∀ a b, k.req a b = true → F a b) → F a b) := by
  obtain ⟨H, e, hc⟩ := mvpc_class hac zero ha stable ucRule hr prio k ⟨hk.1, hk.2⟩ h0
  have hD := hc D hac ⟨fun _ _ => Iff.rfl, fun _ _ _ => Iff.rfl⟩ ⟨hk.1, hk.2⟩
  refine ⟨H, e, fun a b => by rw [← hD.skeleton]; simp, fun a b h => hD.meek hac ((compelled_iff_meek hac a b).1 h), ?_⟩
  exact fun a b h F hF he h1 h2 => (hc F hF he ⟨h1, h2⟩).directed a b h

/-! ### A run meeting the assumptions -/

/-- d-separation in the graph `e`, decided -/
def sepIn (e : Fin n → Fin n → Bool) : CI n := fun x y S => !dconnB e (fun v => S.any fun i => i == v) x y

theorem sepIn_oracle {e : Fin n → Fin n → Bool} (ρ : Fin n → Nat) (hr : ∀ a b, e a b = true → ρ a < ρ b) (hm : ∀ a, ρ a < n) :
    DSepOracle (fun a b => e a b = true) (sepIn e) := by
  intro x y S _ _ _ _
  rw [sepIn, Bool.not_eq_true', Bool.eq_false_iff, ne_eq, dconnB_iff hr hm, DSep]
  have : {v | (S.any fun i => i == v) = true} = {v | v ∈ S} := by ext v; simp
  rw [this]

/-- p-value 1 for independence, 0 for dependence, level 0 -/
def sepT (e : Fin n → Fin n → Bool) : TestFn n Nat := ⟨fun x y S => if sepIn e x y S then 1 else 0, 0⟩

theorem sepT_ind (e : Fin n → Fin n → Bool) : (sepT e).ind = sepIn e := by
  funext x y S
  simp only [TestFn.ind, sepT]
  by_cases h : sepIn e x y S = true <;> simp [h]

/-- the v-structure `0 → 2 ← 1` -/
def vE : Fin 3 → Fin 3 → Bool := fun a b => (a == 0 && b == 2) || (a == 1 && b == 2)

/-- the missingness of 0 depends on 2; column 0 of the data replaced by the indicator -/
def vE0 : Fin 3 → Fin 3 → Bool := fun a b => (a == 1 && b == 2) || (a == 2 && b == 0)

/-- Test-wise deletion selects on a descendant of 2, so 0 and 1 are dependent in the complete cases: `t1` finds nothing. -/
def vT : Tests 3 Nat := ⟨fun _ => sepIn vE0, fun _ _ _ => false, fun _ _ => sepT vE⟩

theorem vE_acyclic : Acyclic fun a b => vE a b = true := acyclic_of_rank (ρ := fun v => v.val) (by decide)

theorem vE0_acyclic : Acyclic fun a b => vE0 a b = true :=
  acyclic_of_rank (ρ := fun v => if v = 1 then 0 else if v = 2 then 1 else 2) (by decide)

theorem vT_assumptions : Assumptions (fun a b => vE a b = true) (fun y i => y = 2 ∧ i = 0) vT [0] (fun _ => false) := by
  refine ⟨fun _ _ => rfl, fun i hi => ?_, fun x y S _ _ _ _ h => by simp [vT] at h, fun prt K _ _ _ _ => ?_⟩
  · obtain rfl : i = 0 := by simpa using hi
    exact ⟨fun a b => vE0 a b = true, vE0_acyclic, by decide, by decide,
      sepIn_oracle (fun v => if v = 1 then 0 else if v = 2 then 1 else 2) (by decide) (by decide)⟩
  · show DSepOracle _ (sepT vE).ind
    rw [sepT_ind]
    exact sepIn_oracle (fun v => v.val) (by decide) (by decide)

/-- The hypotheses of `C93_detect_parents` and `C95_mvpc_partial` are met, with non-trivial results. -/
example (stable : Bool) : ∃ N, detectParent stable (vT.t0 0) false 0 = some N ∧ ∀ y, y ∈ N ↔ y = 2 := by
  obtain ⟨N, h1, h2⟩ := C93_detect_parents stable (fun a b => vE0 a b = true) vE0_acyclic (vT.t0 0)
    (sepIn_oracle (fun v => if v = 1 then 0 else if v = 2 then 1 else 2) (by decide) (by decide)) 0 (by decide)
  exact ⟨N, h1, fun y => (h2 y).trans (by revert y; decide)⟩

example (ucRule : Nat) (hr : ucRule ≤ 2) : ∃ H, mvpcAlg vT 0 [0] (fun _ => false) true ucRule none Know.none = some (.graph H) ∧
    H.Arrow 0 2 ∧ H.g 0 1 = .null := by
  obtain ⟨H, h1, h2⟩ := C95_mvpc_partial _ _ vE_acyclic vT 0 [0] (fun _ => false) vT_assumptions true ucRule hr none (fun _ => rfl)
  refine ⟨H, h1, (h2 0 2).2.1.2 ?_, (h2 0 1).1.2 (by unfold Adj; decide)⟩
  refine ⟨by decide, fun F hF he => ?_⟩
  have hc : UnshieldedCollider F 0 2 1 := (he.2 0 2 1).1 (by unfold UnshieldedCollider Adj Collider; decide)
  exact hc.2.2.1

/-- **C95 violated.** `mvpc(stable=False)` with the default collider rule raises an exception on that run: the correction removes the
edge between 0 and 1 without recording a separating set, and the collider rule then iterates over `None`. -/
theorem C95_unstable_violated : ∃ (D R : Fin 3 → Fin 3 → Prop) (T : Tests 3 Nat) (miss : List (Fin 3)) (const : Fin 3 → Bool),
    Acyclic D ∧ Assumptions D R T miss const ∧ mvpcAlg T 0 miss const false 0 none Know.none = some .raises := by
  refine ⟨_, _, vT, [0], fun _ => false, vE_acyclic, vT_assumptions, ?_⟩
  have h : (mvpcAlg vT 0 [0] (fun _ => false) false 0 none Know.none).elim false (fun o => match o with | .raises => true | _ => false) = true := by
    decide +kernel
  revert h
  cases mvpcAlg vT 0 [0] (fun _ => false) false 0 none Know.none with
  | none => simp
  | some o => cases o <;> simp

end Mvpc
end CL
