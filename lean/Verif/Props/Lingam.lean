import Verif.Model.Lingam
import Mathlib.Logic.Relation
import Mathlib.Tactic.Tauto

/-!
# C43, C44 (DirectLiNGAM), C46 (ICA-LiNGAM order search), C54 (`make_prior_knowledge`)
-/
namespace CL.Lingam

/-! ## Specification -/

/-- `a` is listed before `b`. -/
def Before (K : List Nat) (a b : Nat) : Prop := [a, b].Sublist K

/-- The coefficient matrix has no directed cycle (`B j i ≠ 0` means `i → j`). -/
def AcyclicB {R : Type} [Zero R] (B : Nat → Nat → R) : Prop := ∀ i, ¬ Relation.TransGen (fun i j => B j i ≠ 0) i i

/-! ## C54 -/

theorem put_foldl {V : Type} (ps : List (Nat × Nat)) (v : V) (m : Nat → Nat → V) (a b : Nat) :
    ps.foldl (fun (m : Nat → Nat → V) p => put m p.2 p.1 v) m a b = if (b, a) ∈ ps then v else m a b := by
  induction ps generalizing m with
  | nil => simp
  | cons p ps ih =>
    rw [List.foldl_cons, ih]
    simp only [List.mem_cons, put]
    by_cases h1 : (b, a) ∈ ps
    · simp [h1]
    · by_cases h2 : (b, a) = p
      · subst h2; simp
      · have : ¬ (a = p.2 ∧ b = p.1) := fun h => h2 (Prod.ext h.2 h.1)
        simp [h1, h2, this]

theorem col_foldl {V : Type} (vs : List Nat) (v0 : V) (m : Nat → Nat → V) (a b : Nat) :
    vs.foldl (fun (m : Nat → Nat → V) v => fun a b => if b = v then v0 else m a b) m a b =
      if b ∈ vs then v0 else m a b := by
  induction vs generalizing m with
  | nil => simp
  | cons p ps ih =>
    rw [List.foldl_cons, ih]
    by_cases h1 : b ∈ ps <;> by_cases h2 : b = p <;> simp [h1, h2]

theorem row_foldl {V : Type} (vs : List Nat) (v0 : V) (m : Nat → Nat → V) (a b : Nat) :
    vs.foldl (fun (m : Nat → Nat → V) v => fun a b => if a = v then v0 else m a b) m a b =
      if a ∈ vs then v0 else m a b := by
  induction vs generalizing m with
  | nil => simp
  | cons p ps ih =>
    rw [List.foldl_cons, ih]
    by_cases h1 : a ∈ ps <;> by_cases h2 : a = p <;> simp [h1, h2]

/-- **C54**: the entry for "from `i` to `j`" (row `j`, column `i`): the diagonal is unknown; rows of exogenous variables and
columns of sinks are "no path"; otherwise a listed path, otherwise a listed no-path, otherwise unknown. -/
theorem C54_make_prior_knowledge (exo sink : List Nat) (paths noPaths : List (Nat × Nat)) (i j : Nat) :
    let e := makePriorKnowledge exo sink paths noPaths j i
    (i = j → e = -1) ∧
    (i ≠ j → (j ∈ exo ∨ i ∈ sink) → e = 0) ∧
    (i ≠ j → j ∉ exo → i ∉ sink → (i, j) ∈ paths → e = 1) ∧
    (i ≠ j → j ∉ exo → i ∉ sink → (i, j) ∉ paths → (i, j) ∈ noPaths → e = 0) ∧
    (i ≠ j → j ∉ exo → i ∉ sink → (i, j) ∉ paths → (i, j) ∉ noPaths → e = -1) := by
  simp only [makePriorKnowledge, put_foldl, col_foldl, row_foldl]
  refine ⟨?_, ?_, ?_, ?_, ?_⟩
  · intro h; simp [h]
  · intro h h'
    rcases h' with h' | h' <;> simp [Ne.symm h, h']
  · intro h1 h2 h3 h4; simp [Ne.symm h1, h2, h3, h4]
  · intro h1 h2 h3 h4 h5; simp [Ne.symm h1, h2, h3, h4, h5]
  · intro h1 h2 h3 h4 h5; simp [Ne.symm h1, h2, h3, h4, h5]

example : (List.range 3).map (fun j => (List.range 3).map fun i => makePriorKnowledge [0] [2] [(0, 1)] [(1, 0)] j i) =
    [[-1, 0, 0], [1, -1, 0], [-1, -1, -1]] := by decide

/-! ## The main loop of `fit` -/

theorem argmaxFirst_mem {S : Type} [LinearOrder S] (score : Nat → S) (l : List Nat) (m : Nat)
    (h : argmaxFirst score l = some m) : m ∈ l := by
  cases l with
  | nil => simp [argmaxFirst] at h
  | cons a l =>
    simp only [argmaxFirst, Option.some_inj] at h
    subst h
    have : ∀ (l : List Nat) (a : Nat), l.foldl (fun best b => if score best < score b then b else best) a ∈ a :: l := by
      intro l
      induction l with
      | nil => simp
      | cons b l ih =>
        intro a
        rw [List.foldl_cons]
        have := ih (if score a < score b then b else a)
        rw [List.mem_cons] at this ⊢
        rcases this with h | h
        · rw [h]; split <;> simp
        · exact Or.inr (by simp [h])
    exact this l a

theorem argmaxFirst_some {S : Type} [LinearOrder S] (score : Nat → S) (l : List Nat) (h : l ≠ []) :
    ∃ m, argmaxFirst score l = some m := by
  cases l with
  | nil => exact absurd rfl h
  | cons a l => exact ⟨_, rfl⟩

theorem searchCausalOrder_mem {S : Type} [LinearOrder S] {score : List Nat → List Nat → Nat → S} {M : Model}
    {K U : List Nat} {m : Nat} (h : searchCausalOrder score M K U = some m) : m ∈ searchCandidate M U := by
  unfold searchCausalOrder at h
  dsimp only at h
  split at h
  · exact List.mem_of_mem_head? h
  · exact argmaxFirst_mem _ _ _ h

theorem searchCausalOrder_some {S : Type} [LinearOrder S] (score : List Nat → List Nat → Nat → S) (M : Model)
    (K U : List Nat) (h : searchCandidate M U ≠ []) : ∃ m, searchCausalOrder score M K U = some m := by
  unfold searchCausalOrder
  dsimp only
  split
  · cases hc : searchCandidate M U with
    | nil => exact absurd hc h
    | cons a l => exact ⟨a, by rw [List.head?_cons]⟩
  · exact argmaxFirst_some _ _ h

theorem searchCandidate_sub (M : Model) (U : List Nat) (i : Nat) (h : i ∈ searchCandidate M U) : i ∈ U := by
  unfold searchCandidate at h
  split at h
  · exact h
  · split at h
    · exact List.mem_of_mem_filter h
    · dsimp only at h
      split at h <;> exact List.mem_of_mem_filter h

/-- Invariant of the main loop, relative to the object `M0` at the start of `fit`. -/
structure FitInv (n : Nat) (M0 : Model) (st : Model × List Nat × List Nat) : Prop where
  perm : (st.2.1 ++ st.2.2).Perm (List.range n)
  aknw : st.1.aknw = M0.aknw
  soft : st.1.soft = M0.soft
  orders : M0.aknw.isSome → M0.soft = false → st.1.orders = M0.orders.filter fun p => p.1 ∉ st.2.1
  ordered : M0.aknw.isSome → M0.soft = false → ∀ p ∈ M0.orders, p.2 ∈ st.2.1 → p.1 < n → Before st.2.1 p.1 p.2

theorem filter_ne_perm {l : List Nat} (hn : l.Nodup) {m : Nat} (hm : m ∈ l) : (m :: l.filter (· ≠ m)).Perm l := by
  have := List.perm_cons_erase hm
  rw [hn.erase_eq_filter] at this
  have e : l.filter (fun x => x != m) = l.filter (fun x => decide (x ≠ m)) := by
    congr 1; funext x; simp [bne, beq_eq_decide]
  rw [e] at this
  exact this.symm

theorem FitInv.step {S : Type} [LinearOrder S] {score : List Nat → List Nat → Nat → S} {n : Nat} {M0 : Model}
    {st st' : Model × List Nat × List Nat} (h : FitInv n M0 st) (hs : fitStep score st = some st') :
    FitInv n M0 st' ∧ st'.2.1.length = st.2.1.length + 1 := by
  obtain ⟨M, K, U⟩ := st
  unfold fitStep at hs
  rw [Option.map_eq_some_iff] at hs
  obtain ⟨m, hm, rfl⟩ := hs
  have hmc := searchCausalOrder_mem hm
  have hmU := searchCandidate_sub M U m hmc
  have hnd : (K ++ U).Nodup := h.perm.nodup_iff.2 List.nodup_range
  have hperm := h.perm
  have hak := h.aknw
  have hso := h.soft
  have hor := h.orders
  have hod := h.ordered
  dsimp only at hperm hak hso hor hod
  refine ⟨⟨?_, ?_, ?_, ?_, ?_⟩, by simp⟩
  · dsimp only
    refine List.Perm.trans ?_ hperm
    rw [List.append_assoc, List.singleton_append]
    exact List.Perm.append_left K (filter_ne_perm (List.Nodup.of_append_right hnd) hmU)
  · dsimp only; split <;> exact hak
  · dsimp only; split <;> exact hso
  · intro h1 h2
    dsimp only
    rw [hak, hso, h1, h2]
    simp only [Bool.not_false, Bool.and_self, if_true]
    rw [hor h1 h2, List.filter_filter]
    congr 1
    funext p
    simp only [List.mem_append, List.mem_singleton, not_or]
    by_cases c1 : p.1 = m <;> by_cases c2 : p.1 ∈ K <;> simp [c1, c2]
  · intro h1 h2 p hp hpK hpn
    dsimp only at hpK ⊢
    rw [List.mem_append, List.mem_singleton] at hpK
    by_cases c : p.2 ∈ K
    · exact (hod h1 h2 p hp c hpn).trans (List.sublist_append_left _ _)
    · have e : p.2 = m := hpK.resolve_left c
      -- `m` is a candidate, so no remaining order points to it
      unfold searchCandidate at hmc
      cases hM : M.aknw with
      | none => rw [hak] at hM; rw [hM] at h1; cases h1
      | some pk =>
        rw [hM] at hmc
        simp only [hso, h2, Bool.not_false, if_true, List.mem_filter, decide_eq_true_eq] at hmc
        have h3 : p.1 ∈ K := by
          by_contra h4
          refine hmc.2 (List.mem_map.2 ⟨p, ?_, e⟩)
          rw [hor h1 h2, List.mem_filter]
          exact ⟨hp, by simpa using h4⟩
        unfold Before
        rw [e]
        exact List.Sublist.append (List.singleton_sublist.2 h3) (List.Sublist.refl [m])

theorem FitInv.loop {S : Type} [LinearOrder S] {score : List Nat → List Nat → Nat → S} {n : Nat} {M0 : Model} (k : Nat) :
    ∀ {st st' : Model × List Nat × List Nat}, FitInv n M0 st → fitLoop score k st = some st' →
    FitInv n M0 st' ∧ st'.2.1.length = st.2.1.length + k := by
  induction k with
  | zero => intro st st' h hs; simp only [fitLoop, Option.some_inj] at hs; subst hs; exact ⟨h, rfl⟩
  | succ k ih =>
    intro st st' h hs
    simp only [fitLoop, Option.bind_eq_some_iff] at hs
    obtain ⟨s1, h1, h2⟩ := hs
    obtain ⟨h3, h4⟩ := h.step h1
    obtain ⟨h5, h6⟩ := ih h3 h2
    exact ⟨h5, by omega⟩

theorem FitInv.init (n : Nat) (M : Model) : FitInv n M (M, [], List.range n) where
  perm := by simp
  aknw := rfl
  soft := rfl
  orders _ _ := by simp
  ordered _ _ p _ h := by simp at h

theorem fitOrder_inv {S : Type} [LinearOrder S] {score : List Nat → List Nat → Nat → S} {n : Nat} {M M' : Model}
    {K : List Nat} (h : fitOrder score n M = some (M', K)) : K.Perm (List.range n) ∧ FitInv n M (M', K, []) := by
  unfold fitOrder at h
  rw [Option.map_eq_some_iff] at h
  obtain ⟨⟨M1, K1, U1⟩, h1, h2⟩ := h
  obtain ⟨h3, h4⟩ := (FitInv.init n M).loop n h1
  simp only [Prod.mk.injEq] at h2
  obtain ⟨rfl, rfl⟩ := h2
  have h5 := h3.perm
  have hlen := h5.length_eq
  dsimp only at h4 hlen h5
  simp only [List.length_append, List.length_range, List.length_nil, Nat.zero_add] at h4 hlen
  have : U1 = [] := List.length_eq_zero_iff.1 (by omega)
  subst this
  exact ⟨by simpa using h5, h3⟩

/-! ## The coefficient matrix -/

theorem estimateAdjacency_spec {R : Type} [Zero R] (coef : Nat → List Nat → Nat → R) (pk : Option Prior)
    (order : List Nat) (j i : Nat) (h : estimateAdjacency coef pk order j i ≠ 0) :
    ∃ k, order[k]? = some j ∧ i ∈ predictorsOf pk order j k := by
  unfold estimateAdjacency at h
  have gen : ∀ (ks : List Nat) (B : Nat → Nat → R), ks.foldl (fun (B : Nat → Nat → R) i =>
      (order[i]?).elim B fun target =>
        let pred := predictorsOf pk order target i
        if pred.length = 0 then B
        else fun a b => if a = target ∧ b ∈ pred then coef target pred b else B a b) B j i ≠ 0 →
      B j i ≠ 0 ∨ ∃ k, order[k]? = some j ∧ i ∈ predictorsOf pk order j k := by
    intro ks
    induction ks with
    | nil => intro B h; exact Or.inl h
    | cons k ks ih =>
      intro B h
      rw [List.foldl_cons] at h
      rcases ih _ h with h1 | h1
      · cases ho : order[k]? with
        | none => rw [ho] at h1; exact Or.inl h1
        | some t =>
          rw [ho] at h1
          simp only [Option.elim_some] at h1
          split at h1
          · exact Or.inl h1
          · dsimp only at h1
            split at h1
            · rename_i hc
              obtain ⟨rfl, hc⟩ := hc
              exact Or.inr ⟨k, ho, hc⟩
            · exact Or.inl h1
      · exact Or.inr h1
  rcases gen _ _ h with h | h
  · exact absurd rfl h
  · exact h

theorem before_of_take {order : List Nat} {k i j : Nat} (hk : order[k]? = some j) (hi : i ∈ order.take k) :
    Before order i j := by
  obtain ⟨hlt, he⟩ := List.getElem?_eq_some_iff.1 hk
  have : order = order.take k ++ (j :: order.drop (k + 1)) := by
    conv_lhs => rw [← List.take_append_drop k order]
    rw [List.drop_eq_getElem_cons hlt, he]
  unfold Before
  rw [this]
  exact List.Sublist.append (l₁ := [i]) (List.singleton_sublist.2 hi) (List.singleton_sublist.2 (by simp))

theorem predictorsOf_sub {pk : Option Prior} {order : List Nat} {t k i : Nat} (h : i ∈ predictorsOf pk order t k) :
    i ∈ order.take k := by
  unfold predictorsOf at h
  split at h
  · exact h
  · exact List.mem_of_mem_filter h

theorem before_idx {K : List Nat} (hn : K.Nodup) {a b : Nat} (h : Before K a b) : K.idxOf a < K.idxOf b := by
  unfold Before at h
  induction K with
  | nil => simp at h
  | cons c K ih =>
    rw [List.nodup_cons] at hn
    rcases List.sublist_cons_iff.1 h with h | ⟨r, hr, h⟩
    · have hb : b ∈ K := h.subset (by simp)
      have ha : a ∈ K := h.subset (by simp)
      have h1 : c ≠ a := by rintro rfl; exact hn.1 ha
      have h2 : c ≠ b := by rintro rfl; exact hn.1 hb
      rw [List.idxOf_cons_ne _ h1, List.idxOf_cons_ne _ h2]
      exact Nat.succ_lt_succ (ih hn.2 h)
    · simp only [List.cons.injEq] at hr
      obtain ⟨rfl, rfl⟩ := hr
      have hb : b ∈ K := h.subset (by simp)
      have h2 : a ≠ b := by rintro rfl; exact hn.1 hb
      rw [List.idxOf_cons_self, List.idxOf_cons_ne _ h2]
      omega

theorem acyclic_of_before {R : Type} [Zero R] {B : Nat → Nat → R} {K : List Nat} (hn : K.Nodup)
    (h : ∀ i j, B j i ≠ 0 → Before K i j) : AcyclicB B := by
  intro i hc
  have : ∀ a b, Relation.TransGen (fun i j => B j i ≠ 0) a b → K.idxOf a < K.idxOf b := by
    intro a b h'
    induction h' with
    | single h' => exact before_idx hn (h _ _ h')
    | tail _ h' ih => exact ih.trans (before_idx hn (h _ _ h'))
  exact lt_irrefl _ (this i i hc)

/-! ## C43 -/

/-- **C43**: whenever `fit` returns — with any data, with or without prior knowledge, hard or soft — the causal order is a
permutation of the variables, every non-zero coefficient goes from an earlier to a later variable, and the coefficient
matrix is acyclic. -/
theorem C43_direct_lingam {S R : Type} [LinearOrder S] [Zero R] (score : List Nat → List Nat → Nat → S)
    (coef : Nat → List Nat → Nat → R) (n : Nat) (M M' : Model) (K : List Nat) (B : Nat → Nat → R)
    (h : fit score coef n M = some (M', K, B)) :
    K.Perm (List.range n) ∧ (∀ i j, B j i ≠ 0 → Before K i j) ∧ AcyclicB B := by
  unfold fit at h
  rw [Option.map_eq_some_iff] at h
  obtain ⟨⟨M1, K1⟩, h1, h2⟩ := h
  simp only [Prod.mk.injEq] at h2
  obtain ⟨rfl, rfl, rfl⟩ := h2
  obtain ⟨hp, -⟩ := fitOrder_inv h1
  have hb : ∀ i j, estimateAdjacency coef M1.aknw K1 j i ≠ 0 → Before K1 i j := by
    intro i j hij
    obtain ⟨k, h3, h4⟩ := estimateAdjacency_spec _ _ _ _ _ hij
    exact before_of_take h3 (predictorsOf_sub h4)
  exact ⟨hp, hb, acyclic_of_before (hp.nodup_iff.2 List.nodup_range) hb⟩

theorem fitLoop_some {S : Type} [LinearOrder S] (score : List Nat → List Nat → Nat → S) (n : Nat) (M0 : Model)
    (hc : ∀ st : Model × List Nat × List Nat, FitInv n M0 st → st.2.2 ≠ [] → searchCandidate st.1 st.2.2 ≠ []) (k : Nat) :
    ∀ st : Model × List Nat × List Nat, FitInv n M0 st → st.2.2.length = k → ∃ st', fitLoop score k st = some st' := by
  induction k with
  | zero => intro st _ _; exact ⟨st, rfl⟩
  | succ k ih =>
    intro st h hk
    obtain ⟨m, hm⟩ := searchCausalOrder_some score st.1 st.2.1 st.2.2 (hc st h (by rintro h'; rw [h'] at hk; cases hk))
    have hs : ∃ s1, fitStep score st = some s1 := by
      unfold fitStep
      simp only [hm, Option.map_some]
      exact ⟨_, rfl⟩
    obtain ⟨s1, hs⟩ := hs
    obtain ⟨h1, h2⟩ := h.step hs
    have l1 := h.perm.length_eq
    have l2 := h1.perm.length_eq
    rw [List.length_append] at l1 l2
    obtain ⟨st', h3⟩ := ih s1 h1 (by omega)
    exact ⟨st', by simp [fitLoop, hs, h3]⟩

/-- **C43**: without prior knowledge `fit` always returns. -/
theorem C43_returns_without_prior {S R : Type} [LinearOrder S] [Zero R] (score : List Nat → List Nat → Nat → S)
    (coef : Nat → List Nat → Nat → R) (n : Nat) (M : Model) (hM : M.aknw = none) :
    ∃ r, fit score coef n M = some r := by
  obtain ⟨st', h⟩ := fitLoop_some score n M (fun st hst hne => by
    unfold searchCandidate; rw [hst.aknw, hM]; exact hne) n (M, [], List.range n) (FitInv.init n M) (by simp)
  exact ⟨_, by simp only [fit, fitOrder, h, Option.map_some]; rfl⟩

/-! ## C44 -/

/-- What the user's prior-knowledge matrix says about the order (entry `[j, i]`, row `j`, column `i`): `i` precedes `j` if a
path from `i` to `j` is stated, or if only the path from `j` to `i` is ruled out. -/
def MustPrecede (n : Nat) (pk : Prior) (i j : Nat) : Prop :=
  i < n ∧ j < n ∧ (pk j i = some 1 ∨ (pk i j = some 0 ∧ pk j i ≠ some 0))

theorem mem_indexPairs (n : Nat) (p : Nat × Nat) : p ∈ indexPairs n ↔ p.1 < n ∧ p.2 < n := by
  unfold indexPairs
  rw [List.mem_flatMap]
  constructor
  · rintro ⟨a, h1, h2⟩
    rw [List.mem_map] at h2
    obtain ⟨b, h2, rfl⟩ := h2
    exact ⟨List.mem_range.1 h1, List.mem_range.1 h2⟩
  · rintro ⟨h1, h2⟩
    exact ⟨p.1, List.mem_range.2 h1, List.mem_map.2 ⟨p.2, List.mem_range.2 h2, rfl⟩⟩

theorem extract_spec {n : Nat} {pk : Prior} {po : List (Nat × Nat)} (h : extractPartialOrders n pk = some (some po))
    (i j : Nat) : (i, j) ∈ po ↔ MustPrecede n pk i j := by
  unfold extractPartialOrders at h
  dsimp only at h
  split at h
  · cases h
  · split at h
    · cases h
    · simp only [Option.some_inj] at h
      subst h
      simp only [List.mem_map, List.mem_dedup, List.mem_append, List.mem_filter, mem_indexPairs, decide_eq_true_eq,
        MustPrecede, Prod.exists, Prod.mk.injEq]
      constructor
      · rintro ⟨a, b, h, rfl, rfl⟩
        rcases h with h | ⟨c, d, h, rfl, rfl⟩
        · exact ⟨h.1.2, h.1.1, Or.inl h.2⟩
        · refine ⟨h.1.1.1, h.1.1.2, Or.inr ⟨h.1.2, fun h' => h.2 ⟨⟨h.1.1.2, h.1.1.1⟩, h'⟩⟩⟩
      · rintro ⟨h1, h2, h3 | h3⟩
        · exact ⟨j, i, Or.inl ⟨⟨h2, h1⟩, h3⟩, rfl, rfl⟩
        · exact ⟨j, i, Or.inr ⟨i, j, ⟨⟨⟨h1, h2⟩, h3.1⟩, fun h' => h3.2 h'.2⟩, rfl, rfl⟩, rfl, rfl⟩

theorem extract_nonempty {n : Nat} {pk : Prior} (h : extractPartialOrders n pk = some none) (i j : Nat) :
    ¬ MustPrecede n pk i j := by
  unfold extractPartialOrders at h
  dsimp only at h
  split at h
  · cases h
  · split at h
    · rename_i h0
      rw [List.length_eq_zero_iff, List.append_eq_nil_iff, List.map_eq_nil_iff, List.filter_eq_nil_iff,
        List.filter_eq_nil_iff] at h0
      rintro ⟨h1, h2, h3 | h3⟩
      · exact h0.1 (j, i) ((mem_indexPairs _ _).2 ⟨h2, h1⟩) (by simpa using h3)
      · refine h0.2 (i, j) (List.mem_filter.2 ⟨(mem_indexPairs _ _).2 ⟨h1, h2⟩, by simpa using h3.1⟩) ?_
        simp only [List.mem_filter, not_and, decide_eq_true_eq]
        exact fun _ => h3.2
    · simp at h

/-- **C44** (first fit): a freshly constructed model with (hard) prior knowledge orders `i` before `j` whenever the
knowledge says so, and never gives `i → j` a non-zero coefficient when a path from `i` to `j` is ruled out — provided the
knowledge implies at least one precedence (otherwise the constructor discards it, see below). -/
theorem C44_first_fit_obeys_prior_partial {S R : Type} [LinearOrder S] [Zero R] (score : List Nat → List Nat → Nat → S)
    (coef : Nat → List Nat → Nat → R) (n : Nat) (pk : Prior) (M M' : Model) (K : List Nat) (B : Nat → Nat → R)
    (hM : mkModel n (some pk) false = some M) (h : fit score coef n M = some (M', K, B)) :
    (∀ i j, MustPrecede n pk i j → Before K i j) ∧
    ((∃ i j, MustPrecede n pk i j) → ∀ i j, i < n → j < n → pk j i = some 0 → B j i = 0) := by
  unfold mkModel at hM
  simp only [Bool.false_eq_true, if_false] at hM
  cases hx : extractPartialOrders n pk with
  | none => rw [hx] at hM; cases hM
  | some o =>
    rw [hx] at hM
    unfold fit at h
    rw [Option.map_eq_some_iff] at h
    obtain ⟨⟨M1, K1⟩, h1, h2⟩ := h
    simp only [Prod.mk.injEq] at h2
    obtain ⟨rfl, rfl, rfl⟩ := h2
    obtain ⟨hp, hinv⟩ := fitOrder_inv h1
    cases o with
    | none => exact ⟨fun i j hij => absurd hij (extract_nonempty hx i j), fun ⟨i, j, hij⟩ => absurd hij (extract_nonempty hx i j)⟩
    | some po =>
      simp only [Option.some_inj] at hM
      subst hM
      refine ⟨fun i j hij => ?_, fun _ i j _ _ hpk => ?_⟩
      · refine hinv.ordered rfl rfl (i, j) ((extract_spec hx i j).2 hij) ?_ hij.1
        exact hp.mem_iff.2 (List.mem_range.2 hij.2.1)
      · by_contra hne
        obtain ⟨k, h3, h4⟩ := estimateAdjacency_spec _ _ _ _ _ hne
        rw [hinv.aknw] at h4
        simp only [predictorsOf, List.mem_filter, decide_eq_true_eq] at h4
        exact h4.2.2 hpk

/-- **C44** (existence): if some order of the variables satisfies the prior knowledge, `fit` returns. -/
theorem C44_returns_if_consistent {S R : Type} [LinearOrder S] [Zero R] (score : List Nat → List Nat → Nat → S)
    (coef : Nat → List Nat → Nat → R) (n : Nat) (pk : Prior) (M : Model) (hM : mkModel n (some pk) false = some M)
    (rank : Nat → Nat) (hr : ∀ i j, MustPrecede n pk i j → rank i < rank j) : ∃ r, fit score coef n M = some r := by
  unfold mkModel at hM
  simp only [Bool.false_eq_true, if_false] at hM
  cases hx : extractPartialOrders n pk with
  | none => rw [hx] at hM; cases hM
  | some o =>
    rw [hx] at hM
    cases o with
    | none =>
      simp only [Option.some_inj] at hM
      exact C43_returns_without_prior score coef n M (by rw [← hM])
    | some po =>
      simp only [Option.some_inj] at hM
      have hM1 : M.aknw = some pk := by rw [← hM]
      have hM2 : M.soft = false := by rw [← hM]
      have hM3 : M.orders = po := by rw [← hM]
      have hc : ∀ st : Model × List Nat × List Nat, FitInv n M st → st.2.2 ≠ [] → searchCandidate st.1 st.2.2 ≠ [] := ?_
      · obtain ⟨st', h⟩ := fitLoop_some score n M hc n (M, [], List.range n) (FitInv.init n M) (by simp)
        exact ⟨_, by simp only [fit, fitOrder, h, Option.map_some]; rfl⟩
      · intro st hst hne
        -- the remaining variable of least rank is a candidate
        have hmin : ∀ l : List Nat, l ≠ [] → ∃ m ∈ l, ∀ x ∈ l, rank m ≤ rank x := by
          intro l
          induction l with
          | nil => intro h; exact absurd rfl h
          | cons a l ih =>
            intro _
            by_cases hl : l = []
            · exact ⟨a, by simp, by simp [hl]⟩
            · obtain ⟨m, hm, hm'⟩ := ih hl
              rcases le_total (rank a) (rank m) with h | h
              · exact ⟨a, by simp, fun x hx => by
                  rcases List.mem_cons.1 hx with rfl | hx
                  · exact le_rfl
                  · exact h.trans (hm' x hx)⟩
              · exact ⟨m, by simp [hm], fun x hx => by
                  rcases List.mem_cons.1 hx with rfl | hx
                  · exact h
                  · exact hm' x hx⟩
        obtain ⟨m, hm, hm'⟩ := hmin st.2.2 hne
        have : m ∈ searchCandidate st.1 st.2.2 := by
          unfold searchCandidate
          rw [hst.aknw, hM1]
          simp only [hst.soft, hM2, Bool.not_false, if_true, List.mem_filter, decide_eq_true_eq]
          refine ⟨hm, fun hmem => ?_⟩
          rw [hst.orders (by rw [hM1]; rfl) hM2, List.mem_map] at hmem
          obtain ⟨⟨a, b⟩, hab, rfl⟩ := hmem
          rw [List.mem_filter, decide_eq_true_eq, hM3] at hab
          have h1 := (extract_spec hx a b).1 hab.1
          have h2 : a ∈ st.2.1 ++ st.2.2 := hst.perm.mem_iff.2 (List.mem_range.2 h1.1)
          rcases List.mem_append.1 h2 with h2 | h2
          · exact hab.2 h2
          · exact absurd (hr a b h1) (not_lt.2 (hm' a h2))
        exact List.ne_nil_of_mem this

/-- **C44** is false for repeated fits: `fit` consumes the stored partial orders, so after any successful fit of a model with
hard prior knowledge none is left ... -/
theorem C44_orders_consumed_violated {S R : Type} [LinearOrder S] [Zero R] (score : List Nat → List Nat → Nat → S)
    (coef : Nat → List Nat → Nat → R) (n : Nat) (pk : Prior) (M M' : Model) (K : List Nat) (B : Nat → Nat → R)
    (hM : mkModel n (some pk) false = some M) (h : fit score coef n M = some (M', K, B)) : M'.orders = [] := by
  unfold mkModel at hM
  simp only [Bool.false_eq_true, if_false] at hM
  unfold fit at h
  rw [Option.map_eq_some_iff] at h
  obtain ⟨⟨M1, K1⟩, h1, h2⟩ := h
  simp only [Prod.mk.injEq] at h2
  obtain ⟨rfl, rfl, rfl⟩ := h2
  obtain ⟨hp, hinv⟩ := fitOrder_inv h1
  cases hx : extractPartialOrders n pk with
  | none => rw [hx] at hM; cases hM
  | some o =>
    rw [hx] at hM
    cases o with
    | none =>
      simp only [Option.some_inj] at hM
      subst hM
      -- no prior knowledge is kept: nothing is stored, and the loop does not touch the field
      have : ∀ k (st st' : Model × List Nat × List Nat), st.1.aknw = none → st.1.orders = [] →
          fitLoop score k st = some st' → st'.1.orders = [] := by
        intro k
        induction k with
        | zero => intro st st' _ h2 h3; simp only [fitLoop, Option.some_inj] at h3; rw [← h3]; exact h2
        | succ k ih =>
          intro st st' h1 h2 h3
          simp only [fitLoop, Option.bind_eq_some_iff, fitStep, Option.map_eq_some_iff] at h3
          obtain ⟨s1, ⟨m, _, rfl⟩, h3⟩ := h3
          refine ih _ st' ?_ ?_ h3 <;> simp [h1, h2]
      unfold fitOrder at h1
      rw [Option.map_eq_some_iff] at h1
      obtain ⟨st', h3, h4⟩ := h1
      simp only [Prod.mk.injEq] at h4
      rw [← h4.1]
      exact this n _ st' rfl rfl h3
    | some po =>
      simp only [Option.some_inj] at hM
      have := hinv.orders (by rw [← hM]; rfl) (by rw [← hM])
      rw [this, List.filter_eq_nil_iff]
      rintro ⟨a, b⟩ hab
      rw [← hM] at hab
      have := (extract_spec hx a b).1 hab
      simpa using hp.mem_iff.2 (List.mem_range.2 this.1)

/-- The prior knowledge "1 has a path to 0" over two variables. -/
def pk10 : Prior := fun j i => if j = 0 ∧ i = 1 then some 1 else none

/-- ... so the second of two identical fits (same data) can order the variables against the prior knowledge, although the
first one obeys it. -/
theorem C44_second_fit_violated :
    ∃ (score : List Nat → List Nat → Nat → Nat) (coef : Nat → List Nat → Nat → Nat) (M : Model)
      (r : List (List Nat × (Nat → Nat → Nat))), mkModel 2 (some pk10) false = some M ∧ MustPrecede 2 pk10 1 0 ∧
      fitMany 2 [(score, coef), (score, coef)] M = some r ∧ r.map Prod.fst = [[1, 0], [0, 1]] ∧
      r.map (fun x => x.2 1 0) = [0, 1] :=
  ⟨fun _ _ _ => 0, fun _ _ _ => 1, ⟨some pk10, false, [(1, 0)]⟩, _, rfl, by unfold MustPrecede; decide, rfl, by decide, by decide⟩

/-- The prior knowledge "no path between 0 and 1 in either direction". -/
def pkNone : Prior := fun j i => if j ≠ i then some 0 else none

/-- The zero entries of the prior are ignored altogether when they come in opposite pairs only: the constructor discards the
knowledge and the fitted model has a coefficient `0 → 1`. -/
theorem C44_symmetric_no_path_violated :
    ∃ (score : List Nat → List Nat → Nat → Nat) (coef : Nat → List Nat → Nat → Nat) (M M' : Model) (K : List Nat)
      (B : Nat → Nat → Nat), mkModel 2 (some pkNone) false = some M ∧ pkNone 1 0 = some 0 ∧
      fit score coef 2 M = some (M', K, B) ∧ B 1 0 ≠ 0 :=
  ⟨fun _ _ _ => 0, fun _ _ _ => 1, ⟨none, false, []⟩, _, _, _, by rfl, rfl, rfl, by decide⟩

/-- Concrete consistent case meeting the hypotheses of `C44_first_fit_obeys_prior_partial`. -/
example : ∃ M, mkModel 2 (some pk10) false = some M ∧ M.orders = [(1, 0)] ∧
    (fitOrder (S := Nat) (fun _ _ _ => 0) 2 M).map Prod.snd = some [1, 0] :=
  ⟨⟨some pk10, false, [(1, 0)]⟩, rfl, rfl, by decide⟩

/-! ## C46 -/

/-- The matrix is strictly lower triangular when rows and columns are listed in the order `K`: a row only has non-zero
entries in earlier columns. -/
def StrictlyLower {R : Type} [Zero R] (mat : Nat → Nat → R) (K : List Nat) : Prop :=
  ∀ i j, i ∈ K → j ∈ K → mat i j ≠ 0 → Before K j i

theorem icaSearch_sound {R : Type} [Zero R] [DecidableEq R] (mat : Nat → Nat → R) (fuel : Nat) :
    ∀ (idx acc : List Nat), (acc ++ idx).Nodup → (∀ i ∈ acc, ∀ j, j ∈ acc ++ idx → mat i j ≠ 0 → Before acc j i) →
    ∃ rest, (icaSearch mat fuel idx acc ++ rest).Perm (acc ++ idx) ∧
      (∀ i ∈ icaSearch mat fuel idx acc, ∀ j, j ∈ acc ++ idx → mat i j ≠ 0 → Before (icaSearch mat fuel idx acc) j i) ∧
      (rest.length + fuel ≥ idx.length) ∧
      (rest ≠ [] → fuel ≥ idx.length → ∀ i ∈ rest, ∃ j ∈ rest, mat i j ≠ 0) := by
  induction fuel with
  | zero =>
    intro idx acc hn h
    refine ⟨idx, .refl _, h, by simp, fun h1 h2 => ?_⟩
    exact absurd (List.length_eq_zero_iff.1 (Nat.le_zero.1 h2)) h1
  | succ fuel ih =>
    intro idx acc hn h
    unfold icaSearch
    cases hf : idx.find? fun i => idx.all fun j => mat i j = 0 with
    | none =>
      refine ⟨idx, .refl _, h, by simp, fun _ _ i hi => ?_⟩
      have := List.find?_eq_none.1 hf i hi
      simpa using this
    | some i =>
      have hi : i ∈ idx := List.mem_of_find?_eq_some hf
      have hz : ∀ j ∈ idx, mat i j = 0 := by simpa using List.find?_some hf
      have hp : ((acc ++ [i]) ++ idx.erase i).Perm (acc ++ idx) := by
        rw [List.append_assoc, List.singleton_append]
        exact List.Perm.append_left acc (List.perm_cons_erase hi).symm
      obtain ⟨rest, h1, h2, h3, h4⟩ := ih (idx.erase i) (acc ++ [i]) (hp.nodup_iff.2 hn) (by
        intro a ha b hb hab
        rw [hp.mem_iff] at hb
        rw [List.mem_append, List.mem_singleton] at ha
        rcases ha with ha | rfl
        · exact (h a ha b hb hab).trans (List.sublist_append_left _ _)
        · rcases List.mem_append.1 hb with hb | hb
          · exact List.Sublist.append (List.singleton_sublist.2 hb) (List.Sublist.refl _)
          · exact absurd (hz b hb) hab)
      have hlen := List.length_erase_of_mem hi
      have hpos : 0 < idx.length := List.length_pos_of_mem hi
      refine ⟨rest, h1.trans hp, fun a ha b hb hab => h2 a ha b (hp.mem_iff.2 hb) hab, by omega, fun h5 h6 => ?_⟩
      exact h4 h5 (by omega)

/-- **C46** (soundness): a returned order lists every variable once and makes the matrix strictly lower triangular. -/
theorem C46_order_sound {R : Type} [Zero R] [DecidableEq R] (n : Nat) (mat : Nat → Nat → R) (K : List Nat)
    (h : icaSearchOrder n mat = some K) : K.Perm (List.range n) ∧ StrictlyLower mat K := by
  unfold icaSearchOrder at h
  dsimp only at h
  split at h
  · cases h
  · rename_i hl
    rw [Option.some_inj] at h
    obtain ⟨rest, h1, h2, -, -⟩ := icaSearch_sound mat n (List.range n) [] (by simpa using List.nodup_range) (by simp)
    rw [h] at h1 h2 hl
    have hr : rest = [] := by
      have := h1.length_eq
      simp only [List.length_append, List.length_range, List.length_nil] at this
      exact List.length_eq_zero_iff.1 (by omega)
    subst hr
    rw [List.append_nil] at h1
    refine ⟨by simpa using h1, fun i j hi hj hij => h2 i hi j ?_ hij⟩
    exact h1.mem_iff.1 hj

/-- **C46** (completeness): `None` is returned only if no order makes the matrix strictly lower triangular. -/
theorem C46_order_complete {R : Type} [Zero R] [DecidableEq R] (n : Nat) (mat : Nat → Nat → R) (K : List Nat)
    (hK : K.Perm (List.range n)) (hl : StrictlyLower mat K) : ∃ K', icaSearchOrder n mat = some K' := by
  unfold icaSearchOrder
  dsimp only
  split
  · rename_i hne
    exfalso
    obtain ⟨rest, h1, -, -, h4⟩ := icaSearch_sound mat n (List.range n) [] (by simpa using List.nodup_range) (by simp)
    have hlen := h1.length_eq
    simp only [List.length_append, List.length_range, List.length_nil] at hlen
    have hr : rest ≠ [] := by rintro rfl; simp at hlen; exact hne hlen
    have h5 := h4 hr (by simp)
    have hmem : ∀ i ∈ rest, i ∈ K := by
      intro i hi
      rw [hK.mem_iff]
      have := h1.mem_iff.1 (List.mem_append_right _ hi)
      simpa using this
    have hnd : K.Nodup := hK.nodup_iff.2 List.nodup_range
    -- an element of `rest` with least position in `K` has a non-zero entry in an earlier column of `rest`
    have key : ∀ m, ∀ i ∈ rest, K.idxOf i = m → False := by
      intro m
      induction m using Nat.strongRecOn with
      | ind m ih =>
        intro i hi hm
        obtain ⟨j, hj, hij⟩ := h5 i hi
        have := before_idx hnd (hl i j (hmem i hi) (hmem j hj) hij)
        exact ih (K.idxOf j) (hm ▸ this) j hj rfl
    obtain ⟨i, hi⟩ := List.exists_mem_of_ne_nil rest hr
    exact key _ i hi rfl
  · exact ⟨_, rfl⟩

/-- **C46**: with at least two variables the approximate search always ends with a permutation, whatever the matrix and the
order of its entries; `fit` then never works with `None`. -/
theorem C46_estimate_total {R : Type} [Zero R] [DecidableEq R] (n : Nat) (hn : 2 ≤ n) (pos : List (Nat × Nat))
    (hpos : pos.Perm (indexPairs n)) (mat : Nat → Nat → R) :
    ∃ K, icaEstimateOrder n pos mat = some K ∧ K.Perm (List.range n) := by
  have hlen : pos.length = n * n := by
    rw [hpos.length_eq]
    unfold indexPairs
    simp
  -- after all positions are zeroed, the identity order works
  have zero_after : ∀ (ps : List (Nat × Nat)) (m : Nat → Nat → R) (a b : Nat),
      ps.foldl (fun (m : Nat → Nat → R) p => put m p.1 p.2 0) m a b ≠ 0 → (a, b) ∉ ps ∧ m a b ≠ 0 := by
    intro ps
    induction ps with
    | nil => intro m a b h; exact ⟨by simp, h⟩
    | cons p ps ih =>
      intro m a b h
      obtain ⟨h1, h2⟩ := ih _ a b h
      simp only [put] at h2
      split at h2
      · exact absurd rfl h2
      · rename_i hc
        refine ⟨fun h3 => ?_, h2⟩
        rcases List.mem_cons.1 h3 with h3 | h3
        · exact hc ⟨by rw [← h3], by rw [← h3]⟩
        · exact h1 h3
  have loop : ∀ (ps : List (Nat × Nat)) (m : Nat → Nat → R), ps ≠ [] →
      (∀ a b, a < n → b < n → m a b ≠ 0 → (a, b) ∈ ps) →
      ∃ K, icaLoop n ps m = some K ∧ K.Perm (List.range n) := by
    intro ps
    induction ps with
    | nil => intro m h; exact absurd rfl h
    | cons p ps ih =>
      intro m _ hz
      unfold icaLoop
      dsimp only
      cases ho : icaSearchOrder n (put m p.1 p.2 0) with
      | some K => exact ⟨K, rfl, (C46_order_sound n _ K ho).1⟩
      | none =>
        have hz' : ∀ a b, a < n → b < n → put m p.1 p.2 0 a b ≠ 0 → (a, b) ∈ ps := by
          intro a b ha hb h
          simp only [put] at h
          split at h
          · exact absurd rfl h
          · rename_i hc
            rcases List.mem_cons.1 (hz a b ha hb h) with h' | h'
            · exact absurd ⟨by rw [← h'], by rw [← h']⟩ hc
            · exact h'
        by_cases hps : ps = []
        · exfalso
          subst hps
          obtain ⟨K, hK⟩ := C46_order_complete n (put m p.1 p.2 0) (List.range n) (.refl _) (by
            intro i j hi hj h
            have := hz' i j (List.mem_range.1 hi) (List.mem_range.1 hj) h
            simp at this)
          rw [hK] at ho
          cases ho
        · exact ih _ hps hz'
  refine loop _ _ ?_ ?_
  · intro h
    have := congrArg List.length h
    rw [List.length_drop, hlen, List.length_nil] at this
    have h2 : n * (n + 1) / 2 < n * n := by
      rw [Nat.div_lt_iff_lt_mul (by decide)]
      have : n * (n + 1) = n * n + n := Nat.mul_succ n n
      have : n * 2 ≤ n * n := Nat.mul_le_mul_left n hn
      omega
    omega
  · intro a b ha hb h
    obtain ⟨h1, -⟩ := zero_after _ _ a b h
    have h2 : (a, b) ∈ pos := hpos.mem_iff.2 ((mem_indexPairs _ _).2 ⟨ha, hb⟩)
    rw [← List.take_append_drop (n * (n + 1) / 2) pos, List.mem_append] at h2
    exact h2.resolve_left h1

/-- With a single variable the search returns `None`, so `fit` fails (it iterates over `None`). -/
theorem C46_single_variable_none {R : Type} [Zero R] [DecidableEq R] (mat : Nat → Nat → R) :
    icaEstimateOrder 1 [(0, 0)] mat = none := rfl

/-- Concrete cases: `0 → 2 → 1` has the order 0, 2, 1; a two-cycle has none. -/
example : icaSearchOrder 3 (fun i j => if (i, j) = (2, 0) ∨ (i, j) = (1, 2) then (5 : Int) else 0) = some [0, 2, 1] ∧
    icaSearchOrder 2 (fun i j => if i ≠ j then (1 : Int) else 0) = none := by decide

end CL.Lingam
