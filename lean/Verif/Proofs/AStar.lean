import Verif.Proofs.OrderCost
import Verif.Props.PriorityQueue
import Mathlib.Algebra.BigOperators.Ring.Finset
import Mathlib.Algebra.Order.BigOperators.Group.Finset
import Mathlib.Data.Finset.Powerset
import Mathlib.Data.Finset.Max

/-!
# A*: invariant, termination, optimality
-/
namespace CL
namespace Exact
open Spec
variable {d : Nat} {K : Type} [AddCommGroup K] [LinearOrder K] [IsOrderedAddMonoid K]

theorem mem_outSet {U : Finset (Fin d)} {i : Fin d} : i ∈ outSet U ↔ i ∉ U := by simp [outSet]

theorem simpleH_univ (pgs : Fin d → PG d K) : simpleH pgs Finset.univ = 0 := by simp [simpleH, outSet]

/-- the simple heuristic never over-estimates -/
theorem simpleH_le {pgs : Fin d → PG d K} (hs : Sorted pgs) {U : Finset (Fin d)} {l : List (Fin d)} (hl : Completion U l) :
    simpleH pgs U ≤ cost pgs U l := by
  have h1 : simpleH pgs U = (l.map fun j => headScore (pgs j)).sum := by
    have hp : (outSet U).Perm l := (List.perm_ext_iff_of_nodup ((List.nodup_finRange d).filter _) hl.1).2 fun v => by
      rw [hl.2]; exact mem_outSet
    exact (hp.map _).sum_eq
  rw [h1]
  clear h1 hl
  induction l generalizing U with
  | nil => simp [cost]
  | cons v l ih =>
    rw [List.map_cons, List.sum_cons]
    exact add_le_add (headScore_le (hs v) U) ih

theorem Real.place {pgs : Fin d → PG d K} {U : Finset (Fin d)} {s : Structs d} {g : WithTop K} (h : Real pgs U s g)
    {i : Fin d} (hi : i ∉ U) : Real pgs (insert i U) (setStruct s i (query (pgs i) U).1) (g + (query (pgs i) U).2) := by
  refine .snoc i h hi (fun j hj => ?_) (by simp [setStruct])
  have : j ≠ i := fun hji => hi (hji ▸ hj)
  simp [setStruct, this]

/-- what path extension does -/
theorem pathExtLoop_spec {pgs : Fin d → PG d K} (hs : Sorted pgs) (f : Nat) (x : Finset (Fin d) × Structs d × WithTop K) :
    x.1 ⊆ (pathExtLoop pgs f x).1 ∧
    (∀ s', (pathExtLoop pgs f (x.1, s', x.2.2)).1 = (pathExtLoop pgs f x).1 ∧
      (pathExtLoop pgs f (x.1, s', x.2.2)).2.2 = (pathExtLoop pgs f x).2.2) ∧
    (Real pgs x.1 x.2.1 x.2.2 →
      Real pgs (pathExtLoop pgs f x).1 (pathExtLoop pgs f x).2.1 (pathExtLoop pgs f x).2.2) ∧
    (∀ l, Completion x.1 l → ∃ l', Completion (pathExtLoop pgs f x).1 l' ∧
      (pathExtLoop pgs f x).2.2 + cost pgs (pathExtLoop pgs f x).1 l' ≤ x.2.2 + cost pgs x.1 l) := by
  induction f generalizing x with
  | zero => exact ⟨Finset.Subset.refl _, fun _ => ⟨rfl, rfl⟩, id, fun l hl => ⟨l, hl, le_refl _⟩⟩
  | succ f ih =>
    simp only [pathExtLoop]
    cases hfind : (outSet x.1).find? fun i => decide ((query (pgs i) x.1).2 = headScore (pgs i)) with
    | none =>
      simp only [Option.elim_none]
      exact ⟨Finset.Subset.refl _, fun _ => by rw [hfind]; exact ⟨rfl, rfl⟩, id, fun l hl => ⟨l, hl, le_refl _⟩⟩
    | some i =>
      simp only [Option.elim_some]
      have hi : i ∉ x.1 := mem_outSet.1 (List.mem_of_find?_eq_some hfind)
      have hq : (query (pgs i) x.1).2 = headScore (pgs i) := by
        have := List.find?_some hfind
        simpa using this
      obtain ⟨h1, h2, h3, h4⟩ := ih (insert i x.1, setStruct x.2.1 i (query (pgs i) x.1).1, x.2.2 + headScore (pgs i))
      refine ⟨(Finset.subset_insert i _).trans h1, fun s' => by rw [hfind]; exact h2 _, fun hr => h3 ?_, fun l hl => ?_⟩
      · have := hr.place hi
        rw [hq] at this
        exact this
      · obtain ⟨l1, hl1, hc1⟩ := place_next hs hi hq hl
        obtain ⟨l2, hl2, hc2⟩ := h4 l1 hl1
        refine ⟨l2, hl2, hc2.trans ?_⟩
        simp only [add_assoc]
        exact add_le_add_right hc1 _

/-- what expanding `U` along `i` does -/
theorem succ_spec {pgs : Fin d → PG d K} (hs : Sorted pgs) (ext : Bool) (U : Finset (Fin d)) (s : Structs d) (g : WithTop K)
    {i : Fin d} (hi : i ∉ U) :
    insert i U ⊆ (succ pgs ext U s g i).1 ∧
    (∀ s', (succ pgs ext U s' g i).1 = (succ pgs ext U s g i).1 ∧ (succ pgs ext U s' g i).2.2 = (succ pgs ext U s g i).2.2) ∧
    (Real pgs U s g → Real pgs (succ pgs ext U s g i).1 (succ pgs ext U s g i).2.1 (succ pgs ext U s g i).2.2) ∧
    (∀ l, Completion (insert i U) l → ∃ l', Completion (succ pgs ext U s g i).1 l' ∧
      (succ pgs ext U s g i).2.2 + cost pgs (succ pgs ext U s g i).1 l' ≤
        (query (pgs i) U).2 + g + cost pgs (insert i U) l) := by
  cases ext with
  | false =>
    refine ⟨Finset.Subset.refl _, fun s' => ⟨rfl, rfl⟩, fun hr => ?_, fun l hl => ⟨l, hl, le_refl _⟩⟩
    have := hr.place hi
    rw [add_comm] at this
    exact this
  | true =>
    obtain ⟨h1, h2, h3, h4⟩ := pathExtLoop_spec hs d
      (insert i U, setStruct s i (query (pgs i) U).1, (query (pgs i) U).2 + g)
    refine ⟨h1, fun s' => h2 _, fun hr => h3 ?_, h4⟩
    have := hr.place hi
    rw [add_comm] at this
    exact this

/-- `U` has been seen -/
def Known (st : AState d K) (U : Finset (Fin d)) : Prop := U ∈ st.closed ∨ PQ.get st.opened U ≠ none

/-- The successor `W` of the closed node `U` along `i` is known and not more expensive than through `U`. -/
def Relaxed (pgs : Fin d → PG d K) (ext : Bool) (st : AState d K) (U : Finset (Fin d)) (i : Fin d) : Prop :=
  Known st (succ pgs ext U (fun _ => none) (st.score U) i).1 ∧
  st.score (succ pgs ext U (fun _ => none) (st.score U) i).1 ≤ (succ pgs ext U (fun _ => none) (st.score U) i).2.2

/-- the heuristic values in the queue: the root was pushed with the simple heuristic (`ExactSearch.py:153-154`) -/
def hEff (pgs : Fin d → PG d K) (h : Finset (Fin d) → WithTop K) (U : Finset (Fin d)) : WithTop K :=
  if U = ∅ then simpleH pgs ∅ else h U

/-- Invariant of the search; `cur` is the node being expanded, of whose variables those in `todo` are still to be tried. -/
structure AInv (pgs : Fin d → PG d K) (ext : Bool) (h : Finset (Fin d) → WithTop K) (cur : Finset (Fin d))
    (todo : List (Fin d)) (st : AState d K) : Prop where
  pq : PQ.Inv (PQ.get st.opened) st.opened
  item : ∀ U w s, PQ.get st.opened U = some (w, s) → w = st.score U + hEff pgs h U ∧ Real pgs U s (st.score U)
  disj : ∀ U ∈ st.closed, PQ.get st.opened U = none
  unknown : ∀ U, ¬ Known st U → st.score U = ⊤
  root : Known st ∅ ∧ st.score ∅ = 0
  top : (Finset.univ : Finset (Fin d)) ∉ st.closed
  relaxed : ∀ U ∈ st.closed, ∀ i, i ∉ U → (U = cur → i ∉ todo) → Relaxed pgs ext st U i

/-- number of realizable costs below the current one -/
def below (V : Finset (WithTop K)) (c : WithTop K) : Nat := (V.filter (· < c)).card

/-- potential of a node -/
def pot (V : Finset (WithTop K)) (st : AState d K) (U : Finset (Fin d)) : Nat :=
  if (PQ.get st.opened U).isSome then 2 * below V (st.score U) + 1
  else if U ∈ st.closed then 2 * below V (st.score U) else 2 * V.card + 2

def potential (V : Finset (WithTop K)) (st : AState d K) : Nat := ∑ U : Finset (Fin d), pot V st U

theorem below_le (V : Finset (WithTop K)) (c : WithTop K) : below V c ≤ V.card := Finset.card_filter_le _ _

theorem below_lt {V : Finset (WithTop K)} {c c' : WithTop K} (h : c' < c) (hm : c' ∈ V) : below V c' < below V c := by
  apply Finset.card_lt_card
  refine ⟨fun x hx => ?_, fun hsub => ?_⟩
  · simp only [Finset.mem_filter] at hx ⊢; exact ⟨hx.1, hx.2.trans h⟩
  · have := hsub (Finset.mem_filter.2 ⟨hm, h⟩)
    simp at this

theorem get_push {KK VV W : Type} [DecidableEq KK] (o : PQ.State KK VV W) (k k' : KK) (v : VV) (w : W) :
    PQ.get (PQ.push o k v w) k' = if k' = k then some (w, v) else PQ.get o k' := by
  unfold PQ.get PQ.push
  dsimp only
  split <;> rfl

/-- a step that makes `W` open with the smaller score `g` -/
theorem AInv.pushed {pgs : Fin d → PG d K} {ext : Bool} {h : Finset (Fin d) → WithTop K} {cur : Finset (Fin d)}
    {todo : List (Fin d)} {st : AState d K} (hI : AInv pgs ext h cur todo st) {W : Finset (Fin d)} {s : Structs d}
    {g : WithTop K} (hW : W ≠ ∅) (hr : Real pgs W s g) (hle : g ≤ st.score W)
    {o : PQ.State (Finset (Fin d)) (Structs d) (WithTop K)} (ho : PQ.Inv (PQ.get o) o)
    (hget : ∀ U, PQ.get o U = if U = W then none else PQ.get st.opened U) (hcur : cur ≠ W) :
    let st' : AState d K := ⟨PQ.push o W s (g + h W), st.closed.erase W, fun X => if X = W then g else st.score X⟩
    AInv pgs ext h cur todo st' ∧ (∀ X, Known st X → Known st' X) ∧ Known st' W ∧ (∀ X, st'.score X ≤ st.score X) ∧
      st'.score cur = st.score cur ∧ st'.score W = g := by
  intro st'
  have hg' : ∀ U, PQ.get st'.opened U = if U = W then some (g + h W, s) else PQ.get st.opened U := by
    intro U
    show PQ.get (PQ.push o W s (g + h W)) U = _
    rw [get_push, hget]
    grind
  have hsc : ∀ X, st'.score X ≤ st.score X := by
    intro X
    show (if X = W then g else st.score X) ≤ _
    split
    · rename_i hX; rw [hX]; exact hle
    · exact le_refl _
  have hk : ∀ X, Known st X → Known st' X := by
    intro X hX
    by_cases hXW : X = W
    · right; rw [hg', if_pos hXW]; simp
    · rcases hX with hX | hX
      · left; exact Finset.mem_erase.2 ⟨hXW, hX⟩
      · right; rw [hg', if_neg hXW]; exact hX
  have hkW : Known st' W := by right; rw [hg', if_pos rfl]; simp
  refine ⟨⟨?_, ?_, ?_, ?_, ?_, ?_, ?_⟩, hk, hkW, hsc, by simp [st', hcur], by simp [st']⟩
  · have hn : o.entries W = none := by
      have := hget W
      rw [if_pos rfl] at this
      simpa [PQ.get] using this
    have := ho.push W s (g + h W) hn
    have heq : PQ.get st'.opened = fun k' => if k' = W then some (g + h W, s) else PQ.get o k' := by
      funext U; exact get_push o W U s (g + h W)
    rw [heq]; exact this
  · intro U w s0 hU
    rw [hg'] at hU
    by_cases hUW : U = W
    · rw [if_pos hUW] at hU
      simp only [Option.some.injEq, Prod.mk.injEq] at hU
      subst hUW
      rw [← hU.1, ← hU.2]
      simp only [st', if_true]
      exact ⟨by rw [hEff, if_neg hW], hr⟩
    · rw [if_neg hUW] at hU
      simp only [st', if_neg hUW]
      exact hI.item U w s0 hU
  · intro U hU
    have hU' := Finset.mem_erase.1 hU
    rw [hg', if_neg hU'.1]
    exact hI.disj U hU'.2
  · intro U hU
    have hUW : U ≠ W := fun hh => hU (hh ▸ hkW)
    simp only [st', if_neg hUW]
    exact hI.unknown U fun hh => hU (hk U hh)
  · refine ⟨hk _ hI.root.1, ?_⟩
    simp only [st', if_neg hW.symm]; exact hI.root.2
  · intro hh; exact hI.top (Finset.mem_erase.1 hh).2
  · intro U hU i hi ht
    have hU' := Finset.mem_erase.1 hU
    obtain ⟨r1, r2⟩ := hI.relaxed U hU'.2 i hi ht
    have hsU : st'.score U = st.score U := by simp only [st', if_neg hU'.1]
    unfold Relaxed
    rw [hsU]
    exact ⟨hk _ r1, (hsc _).trans r2⟩

/-- one relaxation -/
theorem AInv.relax {pgs : Fin d → PG d K} (hs : Sorted pgs) {ext : Bool} {h : Finset (Fin d) → WithTop K}
    {cur : Finset (Fin d)} {i : Fin d} {todo : List (Fin d)} {st : AState d K} {s : Structs d}
    (hI : AInv pgs ext h cur (i :: todo) st) (hi : i ∉ cur) (hr : Real pgs cur s (st.score cur))
    {V : Finset (WithTop K)} (hV : ∀ U s g, Real pgs U s g → g ∈ V) :
    AInv pgs ext h cur todo (relax pgs ext h cur s st i) ∧ (relax pgs ext h cur s st i).score cur = st.score cur ∧
      potential V (relax pgs ext h cur s st i) ≤ potential V st := by
  obtain ⟨g1, g2, g3, -⟩ := succ_spec hs ext cur s (st.score cur) hi
  set x := succ pgs ext cur s (st.score cur) i with hx
  have hW : x.1 ≠ ∅ := by
    intro hh; rw [hh] at g1
    have := g1 (Finset.mem_insert_self i cur)
    simp at this
  have hcur : cur ≠ x.1 := by
    intro hh; rw [← hh] at g1
    exact hi (g1 (Finset.mem_insert_self i cur))
  have hrx := g3 hr
  have hsucc := g2 (fun _ => none)
  -- finishing: after the step the pair (cur, i) is relaxed
  have fin : ∀ st' : AState d K, AInv pgs ext h cur (i :: todo) st' → st'.score cur = st.score cur → Known st' x.1 →
      st'.score x.1 ≤ x.2.2 → AInv pgs ext h cur todo st' := by
    intro st' hI' hc hk hle
    refine { hI' with relaxed := fun U hU j hj ht => ?_ }
    by_cases hUc : U = cur
    · subst hUc
      by_cases hji : j = i
      · subst hji
        unfold Relaxed
        rw [hc, hsucc.1, hsucc.2]
        exact ⟨hk, hle⟩
      · exact hI'.relaxed U hU j hj fun _ hm => (List.mem_cons.1 hm).elim hji (ht rfl)
    · exact hI'.relaxed U hU j hj fun hh => absurd hh hUc
  have hpot : ∀ st' : AState d K, (∀ U, U ≠ x.1 → pot V st' U = pot V st U) → pot V st' x.1 ≤ pot V st x.1 →
      potential V st' ≤ potential V st := by
    intro st' h1 h2
    apply Finset.sum_le_sum
    intro U _
    by_cases hU : U = x.1
    · rw [hU]; exact h2
    · rw [h1 U hU]
  unfold CL.Exact.relax
  dsimp only
  rw [← hx]
  -- the three pushing branches
  have main : ∀ (o : PQ.State (Finset (Fin d)) (Structs d) (WithTop K)), PQ.Inv (PQ.get o) o →
      (∀ U, PQ.get o U = if U = x.1 then none else PQ.get st.opened U) → x.2.2 ≤ st.score x.1 →
      (Known st x.1 → x.2.2 < st.score x.1) →
      let st' : AState d K := ⟨PQ.push o x.1 x.2.1 (x.2.2 + h x.1), st.closed.erase x.1,
        fun X => if X = x.1 then x.2.2 else st.score X⟩
      AInv pgs ext h cur todo st' ∧ st'.score cur = st.score cur ∧ potential V st' ≤ potential V st := by
    intro o ho hget hle hlt st'
    obtain ⟨q1, q2, q3, q4, q5, q6⟩ := hI.pushed hW hrx hle ho hget hcur
    have hg' : ∀ U, PQ.get st'.opened U = if U = x.1 then some (x.2.2 + h x.1, x.2.1) else PQ.get st.opened U := by
      intro U
      show PQ.get (PQ.push o x.1 x.2.1 (x.2.2 + h x.1)) U = _
      rw [get_push, hget]
      grind
    refine ⟨fin st' q1 q5 q3 (le_of_eq q6), q5, hpot st' ?_ ?_⟩
    · intro U hU
      have e1 : PQ.get st'.opened U = PQ.get st.opened U := by rw [hg', if_neg hU]
      have e2 : U ∈ st'.closed ↔ U ∈ st.closed := by
        show U ∈ st.closed.erase x.1 ↔ _
        rw [Finset.mem_erase]; tauto
      have e3 : st'.score U = st.score U := by simp [st', hU]
      unfold pot
      rw [e1, e3]
      simp only [e2]
    · have e1 : PQ.get st'.opened x.1 = some (x.2.2 + h x.1, x.2.1) := by rw [hg', if_pos rfl]
      have e3 : st'.score x.1 = x.2.2 := q6
      have hin := hV _ _ _ hrx
      unfold pot
      rw [e1, e3]
      simp only [Option.isSome_some, if_true]
      by_cases k1 : (PQ.get st.opened x.1).isSome = true
      · rw [if_pos k1]
        have := below_lt (hlt (Or.inr (by intro hh; simp [hh] at k1))) hin
        omega
      · rw [if_neg k1]
        by_cases k2 : x.1 ∈ st.closed
        · rw [if_pos k2]
          have := below_lt (hlt (Or.inl k2)) hin
          omega
        · rw [if_neg k2]
          have := below_le V x.2.2
          omega
  have same : Known st x.1 → ¬ x.2.2 < st.score x.1 →
      AInv pgs ext h cur todo st ∧ st.score cur = st.score cur ∧ potential V st ≤ potential V st :=
    fun hk hn => ⟨fin st hI rfl hk (not_lt.1 hn), rfl, le_refl _⟩
  by_cases c1 : x.1 ∈ st.closed
  · rw [if_pos c1]
    by_cases c2 : x.2.2 < st.score x.1
    · rw [if_pos c2]
      have hn := hI.disj _ c1
      refine main st.opened hI.pq (fun U => ?_) (le_of_lt c2) fun _ => c2
      split
      · rename_i hU; rw [hU]; exact hn
      · rfl
    · rw [if_neg c2]; exact same (Or.inl c1) c2
  · rw [if_neg c1]
    have herase : st.closed = st.closed.erase x.1 := (Finset.erase_eq_of_notMem c1).symm
    by_cases c2 : (PQ.get st.opened x.1).isSome = true
    · rw [if_pos c2]
      have hkn : PQ.get st.opened x.1 ≠ none := by intro hh; simp [hh] at c2
      by_cases c3 : x.2.2 < st.score x.1
      · rw [if_pos c3]
        have hdel : ∃ o, PQ.delete st.opened x.1 = some o := by
          unfold PQ.delete
          cases he : st.opened.entries x.1 with
          | none => simp [PQ.get, he] at hkn
          | some e => exact ⟨_, rfl⟩
        obtain ⟨o, ho⟩ := hdel
        obtain ⟨-, hinv⟩ := hI.pq.delete ho
        have hgo : PQ.get o = fun k' => if k' = x.1 then none else PQ.get st.opened k' := by
          funext k'
          have := hinv.cont k'
          exact this.symm
        rw [← hgo] at hinv
        rw [ho, Option.getD_some, herase]
        exact main o hinv (fun U => by rw [hgo]) (le_of_lt c3) fun _ => c3
      · rw [if_neg c3]; exact same (Or.inr hkn) c3
    · rw [if_neg c2]
      have hn : PQ.get st.opened x.1 = none := by simpa using c2
      have hnk : ¬ Known st x.1 := by
        rintro (hh | hh)
        · exact c1 hh
        · exact hh hn
      rw [herase]
      refine main st.opened hI.pq (fun U => ?_) (by rw [hI.unknown _ hnk]; exact le_top) fun hh => absurd hh hnk
      split
      · rename_i hU; rw [hU]; exact hn
      · rfl

/-- the whole `for` loop -/
theorem AInv.relaxAll {pgs : Fin d → PG d K} (hs : Sorted pgs) {ext : Bool} {h : Finset (Fin d) → WithTop K}
    {cur : Finset (Fin d)} {s : Structs d} {V : Finset (WithTop K)} (hV : ∀ U s g, Real pgs U s g → g ∈ V)
    (todo : List (Fin d)) (ht : ∀ i ∈ todo, i ∉ cur) (st : AState d K) (hI : AInv pgs ext h cur todo st)
    (hr : Real pgs cur s (st.score cur)) :
    AInv pgs ext h cur [] (todo.foldl (CL.Exact.relax pgs ext h cur s) st) ∧
      potential V (todo.foldl (CL.Exact.relax pgs ext h cur s) st) ≤ potential V st := by
  induction todo generalizing st with
  | nil => exact ⟨hI, le_refl _⟩
  | cons i todo ih =>
    obtain ⟨h1, h2, h3⟩ := hI.relax hs (ht i (by simp)) hr hV
    obtain ⟨h4, h5⟩ := ih (fun j hj => ht j (by simp [hj])) _ h1 (by rw [h2]; exact hr)
    exact ⟨h4, h5.trans h3⟩

/-- As long as the full node is not closed, some open node extends any given ordering cheaply. -/
theorem AInv.witness {pgs : Fin d → PG d K} (hs : Sorted pgs) {ext : Bool} {h : Finset (Fin d) → WithTop K}
    {cur : Finset (Fin d)} {st : AState d K} (hI : AInv pgs ext h cur [] st) {l0 : List (Fin d)} (hl0 : Completion ∅ l0) :
    ∃ U l, PQ.get st.opened U ≠ none ∧ Completion U l ∧ st.score U + cost pgs U l ≤ cost pgs ∅ l0 := by
  classical
  let S : Finset (Finset (Fin d)) := Finset.univ.filter fun U =>
    Known st U ∧ ∃ l, Completion U l ∧ st.score U + cost pgs U l ≤ cost pgs ∅ l0
  have hne : S.Nonempty := ⟨∅, by
    simp only [S, Finset.mem_filter, Finset.mem_univ, true_and]
    exact ⟨hI.root.1, l0, hl0, by rw [hI.root.2, zero_add]⟩⟩
  obtain ⟨U, hU, hmax⟩ := S.exists_max_image Finset.card hne
  simp only [S, Finset.mem_filter, Finset.mem_univ, true_and] at hU
  obtain ⟨hk, l, hl, hc⟩ := hU
  rcases hk with hk | hk
  · exfalso
    have hUt : U ≠ Finset.univ := fun hh => hI.top (hh ▸ hk)
    obtain ⟨v, l', rfl⟩ := List.exists_cons_of_ne_nil (completion_ne_nil hl hUt)
    obtain ⟨hv, hl'⟩ := hl.cons
    obtain ⟨r1, r2⟩ := hI.relaxed U hk v hv (by simp)
    obtain ⟨g1, -, -, g4⟩ := succ_spec hs ext U (fun _ => none) (st.score U) hv
    obtain ⟨l2, hl2, hc2⟩ := g4 l' hl'
    have hm := hmax (succ pgs ext U (fun _ => none) (st.score U) v).1 (by
      simp only [S, Finset.mem_filter, Finset.mem_univ, true_and]
      refine ⟨r1, l2, hl2, le_trans ?_ hc⟩
      refine (add_le_add_left r2 _).trans (hc2.trans (le_of_eq ?_))
      simp only [cost]
      rw [add_comm (query (pgs v) U).2 (st.score U), add_assoc])
    have := Finset.card_le_card g1
    rw [Finset.card_insert_of_notMem hv] at this
    omega
  · exact ⟨U, l, hk, hl, hc⟩

/-- correctness of the `while` loop -/
theorem astarLoop_spec (Q : PQ.HeapQ (Finset (Fin d)) (Structs d) (WithTop K)) {pgs : Fin d → PG d K} (hs : Sorted pgs)
    (ext : Bool) (h : Finset (Fin d) → WithTop K) {V : Finset (WithTop K)} (hV : ∀ U s g, Real pgs U s g → g ∈ V)
    (f : Nat) (st : AState d K) (last : Structs d) (cur : Finset (Fin d)) (hI : AInv pgs ext h cur [] st)
    (hf : potential V st < f) :
    ∃ s g, astarLoop Q pgs ext h f st last = some s ∧ Real pgs Finset.univ s g ∧
      (h Finset.univ = 0 → (∀ U l, Completion U l → h U ≤ cost pgs U l) →
        ∀ l0, Completion ∅ l0 → g ≤ cost pgs ∅ l0) := by
  induction f generalizing st last cur with
  | zero => omega
  | succ f ih =>
    obtain ⟨l00, hl00⟩ := exists_completion (∅ : Finset (Fin d))
    obtain ⟨U0, -, hU0, -⟩ := hI.witness hs hl00
    unfold astarLoop
    have hpop := PQ.popLoop_spec Q (st.opened.pq.length + 1) st.opened hI.pq (by omega)
    have hn : st.opened.n ≠ 0 := by
      intro hn
      have hc := hI.pq.count
      rw [hn] at hc
      cases he : st.opened.entries U0 with
      | none => simp [PQ.get, he] at hU0
      | some e =>
        obtain ⟨e1, e2, -⟩ := hI.pq.ent U0 e he
        have : e ∈ st.opened.pq.filter fun e => !e.dead := by simp [e1, e2]
        have := List.length_pos_of_mem this
        omega
    rw [if_neg hn]
    rcases hpop with ⟨w, U, s, o, e1, e2, e3, e4⟩ | ⟨-, e2⟩
    · have e1' : PQ.pop Q st.opened = .ok w U s o := e1
      rw [e1']
      obtain ⟨i1, i2⟩ := hI.item U w s e2
      have hUc : U ∉ st.closed := by
        intro hh; rw [hI.disj U hh] at e2; simp at e2
      dsimp only
      rw [if_neg hUc]
      by_cases hUd : U.card = d
      · rw [if_pos hUd]
        have hUu : U = Finset.univ := by
          apply Finset.eq_univ_of_card; simp [hUd]
        subst hUu
        refine ⟨s, st.score Finset.univ, rfl, i2, fun hz hadm l0 hl0 => ?_⟩
        obtain ⟨X, l, hX, hXl, hXc⟩ := hI.witness hs hl0
        cases hgX : PQ.get st.opened X with
        | none => exact absurd hgX hX
        | some p =>
          obtain ⟨w', s'⟩ := p
          have hmin := e3 X w' s' hgX
          have hw' := (hI.item X w' s' hgX).1
          have hz' : hEff pgs h Finset.univ = 0 := by
            unfold hEff
            split
            · rename_i hh; rw [← hh]; exact simpleH_univ pgs
            · exact hz
          have hadm' : hEff pgs h X ≤ cost pgs X l := by
            unfold hEff
            split
            · rename_i hh; rw [← hh]; exact simpleH_le hs hXl
            · exact hadm X l hXl
          rw [i1, hw', hz', add_zero] at hmin
          exact hmin.trans ((add_le_add_right hadm' _).trans hXc)
      · rw [if_neg hUd]
        have hUu : U ≠ Finset.univ := by rintro rfl; simp at hUd
        have hgo : PQ.get o = fun k' => if k' = U then none else PQ.get st.opened k' := by
          funext k'; exact (e4.cont k').symm
        rw [← hgo] at e4
        have hknown : ∀ X, Known (⟨o, insert U st.closed, st.score⟩ : AState d K) X ↔ Known st X := by
          intro X
          unfold Known
          dsimp only
          rw [hgo]
          by_cases hX : X = U
          · subst hX; simp [e2]
          · simp [hX]
        have hI' : AInv pgs ext h U (outSet U) ⟨o, insert U st.closed, st.score⟩ := by
          refine ⟨e4, ?_, ?_, ?_, ?_, ?_, ?_⟩
          · intro X w' s' hX
            dsimp only at hX ⊢
            rw [hgo] at hX
            dsimp only at hX
            split at hX
            · simp at hX
            · exact hI.item X w' s' hX
          · intro X hX
            dsimp only at hX ⊢
            rw [hgo]
            dsimp only
            split
            · rfl
            · rcases Finset.mem_insert.1 hX with hX | hX
              · contradiction
              · exact hI.disj X hX
          · intro X hX
            exact hI.unknown X fun hh => hX ((hknown X).2 hh)
          · exact ⟨(hknown _).2 hI.root.1, hI.root.2⟩
          · intro hh
            rcases Finset.mem_insert.1 hh with hh | hh
            · exact hUu hh.symm
            · exact hI.top hh
          · intro X hX i hi ht
            rcases Finset.mem_insert.1 hX with rfl | hX
            · exact absurd (mem_outSet.2 hi) (ht rfl)
            · obtain ⟨r1, r2⟩ := hI.relaxed X hX i hi (by simp)
              exact ⟨(hknown _).2 r1, r2⟩
        obtain ⟨h1, h2⟩ := hI'.relaxAll hs hV (outSet U) (fun i hi => mem_outSet.1 hi) _ i2
        refine ih _ s U h1 (lt_of_le_of_lt h2 ?_)
        have hlt : potential V (⟨o, insert U st.closed, st.score⟩ : AState d K) < potential V st := by
          apply Finset.sum_lt_sum
          · intro X _
            unfold pot
            dsimp only
            rw [hgo]
            by_cases hX : X = U
            · subst hX; simp [e2]
            · simp [hX]
          · refine ⟨U, Finset.mem_univ _, ?_⟩
            unfold pot
            dsimp only
            rw [hgo]
            simp [e2]
        omega
    · exact absurd (e2 U0) hU0

theorem astar_spec (Q : PQ.HeapQ (Finset (Fin d)) (Structs d) (WithTop K)) {pgs : Fin d → PG d K} (hs : Sorted pgs)
    (ext : Bool) (h : Finset (Fin d) → WithTop K) :
    ∃ f0, ∀ f, f0 ≤ f → ∃ s g, astar Q pgs ext h f = some s ∧ Real pgs Finset.univ s g ∧
      (h Finset.univ = 0 → (∀ U l, Completion U l → h U ≤ cost pgs U l) →
        ∀ l0, Completion ∅ l0 → g ≤ cost pgs ∅ l0) := by
  obtain ⟨V, hV⟩ := real_values_finite pgs
  refine ⟨potential V (astarInit pgs) + 1, fun f hf => ?_⟩
  have hget : ∀ U, PQ.get (astarInit pgs).opened U =
      if U = ∅ then some (((List.finRange d).map fun i => headScore (pgs i)).sum, fun _ => some ∅) else none := by
    intro U
    show PQ.get (PQ.push PQ.init _ _ _) U = _
    rw [get_push]
    rfl
  refine astarLoop_spec Q hs ext h hV f _ _ ∅ ⟨?_, ?_, ?_, ?_, ?_, ?_, ?_⟩ (by omega)
  · have := (PQ.inv_init (K := Finset (Fin d)) (V := Structs d) (W := WithTop K)).push ∅ (fun _ => some ∅)
      (((List.finRange d).map fun i => headScore (pgs i)).sum) rfl
    have he : PQ.get (astarInit pgs).opened = fun U : Finset (Fin d) =>
      if U = ∅ then some (((List.finRange d).map fun i => headScore (pgs i)).sum, fun _ => some ∅) else none := by
      funext U; exact hget U
    rw [he]; exact this
  · intro U w s hU
    rw [hget] at hU
    split at hU
    · rename_i hU'
      subst hU'
      simp only [Option.some.injEq, Prod.mk.injEq] at hU
      have hz : (astarInit pgs).score ∅ = 0 := by simp [astarInit]
      rw [hz, hEff, if_pos rfl, zero_add]
      refine ⟨?_, .nil s⟩
      rw [← hU.1]
      have : outSet (∅ : Finset (Fin d)) = List.finRange d := by simp [outSet]
      simp [simpleH, this]
    · simp at hU
  · intro U hU; simp [astarInit] at hU
  · intro U hU
    have : U ≠ ∅ := by
      rintro rfl
      exact hU (Or.inr (by rw [hget]; simp))
    simp [astarInit, this]
  · exact ⟨Or.inr (by rw [hget]; simp), by simp [astarInit]⟩
  · simp [astarInit]
  · intro U hU; simp [astarInit] at hU

end Exact
end CL
