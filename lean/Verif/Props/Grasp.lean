import Verif.Props.Boss
import Mathlib.Algebra.BigOperators.Group.Finset.Basic
import Mathlib.Tactic.Abel
import Mathlib.Algebra.Order.Monoid.Unbundled.Pow

/-!
# C60: GRaSP
-/
namespace CL
namespace Perm
open Spec
variable {p : Nat} {K : Type} [AddCommGroup K] [LinearOrder K] [IsOrderedAddMonoid K]

/-- The order object describes its own order: a permutation, with the parents and scores traced from the predecessors. -/
structure Ok (sc : Fin p → Finset (Fin p) → K) (o : Order p K) : Prop where
  perm : o.order.Perm (List.finRange p)
  parents : ∀ v, (o.parents v).Perm (trParents sc v (o.order.take (o.order.idxOf v)))
  scores : ∀ v, o.scores v = trScore sc v (o.order.take (o.order.idxOf v))

/-- equal up to the order inside the parent lists -/
structure Same (o o' : Order p K) : Prop where
  order : o'.order = o.order
  parents : ∀ v, (o'.parents v).Perm (o.parents v)
  scores : o'.scores = o.scores

theorem Same.refl (o : Order p K) : Same o o := ⟨rfl, fun _ => List.Perm.refl _, rfl⟩
theorem Same.trans {a b c : Order p K} (h : Same a b) (h' : Same b c) : Same a c :=
  ⟨h'.order.trans h.order, fun v => (h'.parents v).trans (h.parents v), h'.scores.trans h.scores⟩

theorem Ok.same {sc : Fin p → Finset (Fin p) → K} {o o' : Order p K} (h : Ok sc o) (hs : Same o o') : Ok sc o' := by
  refine ⟨hs.order ▸ h.perm, fun v => ?_, fun v => ?_⟩
  · rw [hs.order]; exact (hs.parents v).trans (h.parents v)
  · rw [hs.order, hs.scores]; exact h.scores v

/-! ### tuck -/

theorem getAncestors_sub (parents : Fin p → List (Fin p)) (f : Nat) (anc : List (Fin p)) (y : Fin p) :
    ∀ a ∈ anc, a ∈ getAncestors parents f anc y := by
  induction f generalizing anc y with
  | zero => intro a h; exact h
  | succ f ih =>
    intro a ha
    simp only [getAncestors]
    have key : ∀ (l anc' : List (Fin p)), a ∈ anc' → a ∈ l.foldl (fun anc x => if x ∈ anc then anc else getAncestors parents f anc x) anc' := by
      intro l
      induction l with
      | nil => intro anc' h; exact h
      | cons x l ihl =>
        intro anc' h
        rw [List.foldl_cons]
        apply ihl
        split
        · exact h
        · exact ih _ _ a h
    exact key _ _ (by simp [ha])

theorem getAncestors_self (parents : Fin p → List (Fin p)) (f : Nat) (anc : List (Fin p)) (y : Fin p) :
    y ∈ getAncestors parents (f + 1) anc y := by
  simp only [getAncestors]
  have key : ∀ (l anc' : List (Fin p)), y ∈ anc' → y ∈ l.foldl (fun anc x => if x ∈ anc then anc else getAncestors parents f anc x) anc' := by
    intro l
    induction l with
    | nil => intro anc' h; exact h
    | cons x l ihl =>
      intro anc' h
      rw [List.foldl_cons]
      apply ihl
      split
      · exact h
      · exact getAncestors_sub _ _ _ _ y h
  exact key _ _ (by simp)

theorem tuck_fold (anc : List (Fin p)) (A : List (Fin p)) (x : Fin p) (M C done : List (Fin p)) :
    (List.range' (A.length + 1 + done.length) M.length).foldl (tuckStep anc A.length)
      (A ++ done.filter (· ∈ anc) ++ x :: done.filter (· ∉ anc) ++ M ++ C, (done.filter (· ∈ anc)).length) =
    (A ++ (done ++ M).filter (· ∈ anc) ++ x :: (done ++ M).filter (· ∉ anc) ++ C, ((done ++ M).filter (· ∈ anc)).length) := by
  induction M generalizing done with
  | nil => simp
  | cons z M ih =>
    rw [List.length_cons, List.range'_succ, List.foldl_cons]
    have hlen : (done.filter (· ∈ anc)).length + (done.filter (· ∉ anc)).length = done.length := by
      have := List.length_eq_length_filter_add (l := done) (fun x => decide (x ∈ anc))
      simp only [decide_not] at *
      omega
    have hpos : (A ++ done.filter (· ∈ anc) ++ x :: done.filter (· ∉ anc)).length = A.length + 1 + done.length := by
      simp only [List.length_append, List.length_cons]; omega
    have hget : (A ++ done.filter (· ∈ anc) ++ x :: done.filter (· ∉ anc) ++ z :: M ++ C)[A.length + 1 + done.length]? = some z := by
      rw [← hpos, List.append_assoc, List.getElem?_append_right (le_refl _)]
      simp
    have hstep : tuckStep anc A.length (A ++ done.filter (· ∈ anc) ++ x :: done.filter (· ∉ anc) ++ z :: M ++ C,
        (done.filter (· ∈ anc)).length) (A.length + 1 + done.length) =
        (A ++ (done ++ [z]).filter (· ∈ anc) ++ x :: (done ++ [z]).filter (· ∉ anc) ++ M ++ C,
          ((done ++ [z]).filter (· ∈ anc)).length) := by
      unfold tuckStep
      dsimp only
      rw [hget]
      simp only [Option.elim_some]
      by_cases hz : z ∈ anc
      · rw [if_pos hz]
        have he : (A ++ done.filter (· ∈ anc) ++ x :: done.filter (· ∉ anc) ++ z :: M ++ C).eraseIdx (A.length + 1 + done.length) =
            A ++ done.filter (· ∈ anc) ++ x :: done.filter (· ∉ anc) ++ M ++ C := by
          rw [← hpos, List.append_assoc, List.eraseIdx_append_of_length_le (le_refl _)]
          simp
        rw [he]
        have hl : A.length + (done.filter (· ∈ anc)).length = (A ++ done.filter (· ∈ anc)).length := by simp
        rw [hl, List.append_assoc, List.append_assoc, insertIdx_mid]
        simp [hz]
      · rw [if_neg hz]
        simp [hz]
    rw [hstep]
    have := ih (done ++ [z])
    simp only [List.length_append, List.length_cons, List.length_nil, List.append_assoc, List.cons_append, List.nil_append] at this ⊢
    rw [show A.length + 1 + done.length + 1 = A.length + (1 + (done.length + (0 + 1))) by omega]
    rw [show A.length + (1 + (done.length + (0 + 1))) = A.length + 1 + (done.length + (0 + 1)) by omega]
    exact this

/-- **C60** (tuck). `tuck(i, j)` moves the node at `i` and its ancestors lying between, in their order, in front of the node at
`j`; everything else keeps its place. -/
theorem C60_tuck (o : Order p K) {A M C : List (Fin p)} {x y : Fin p} (ho : o.order = A ++ x :: M ++ C)
    (hM : M.getLast? = some y) :
    let anc := getAncestors o.parents (p + 1) [] y
    (tuck o (A.length + M.length) A.length).order = A ++ M.filter (· ∈ anc) ++ x :: M.filter (· ∉ anc) ++ C ∧
    y ∈ anc := by
  intro anc
  refine ⟨?_, getAncestors_self _ _ _ _⟩
  have hy : o.order[A.length + M.length]? = some y := by
    have hne : M ≠ [] := by rintro rfl; simp at hM
    have hpos : 0 < M.length := List.length_pos_iff.2 hne
    rw [ho, List.getElem?_append_left (by simp), List.getElem?_append_right (by omega)]
    rw [show A.length + M.length - A.length = (M.length - 1) + 1 by omega, List.getElem?_cons_succ]
    rw [List.getLast?_eq_getElem?] at hM
    exact hM
  unfold tuck
  dsimp only
  rw [hy]
  simp only [Option.elim_some]
  have h := tuck_fold (getAncestors o.parents (p + 1) [] y) A x M C []
  simp only [List.filter_nil, List.append_nil, List.length_nil, Nat.add_zero, List.nil_append] at h
  rw [show A.length + M.length - A.length = M.length by omega, ho]
  simp only [List.append_assoc, List.cons_append, List.nil_append] at h ⊢
  rw [h]

/-- what tuck changes: only the segment between the two positions, which is permuted -/
theorem tuck_segment (o : Order p K) (i j : Nat) (hi : i < o.order.length) (hj : j ≤ i) :
    ∃ M', M'.Perm ((o.order.take (i + 1)).drop j) ∧
      (tuck o i j).order = o.order.take j ++ M' ++ o.order.drop (i + 1) := by
  have hsplit : o.order = o.order.take j ++ ((o.order.take (i + 1)).drop j ++ o.order.drop (i + 1)) := by
    have h1 : o.order.take j ++ (o.order.take (i + 1)).drop j = o.order.take (i + 1) := by
      conv_rhs => rw [← List.take_append_drop j (o.order.take (i + 1))]
      rw [List.take_take, min_eq_left (by omega)]
    rw [← List.append_assoc, h1, List.take_append_drop]
  have hlen : ((o.order.take (i + 1)).drop j).length = i + 1 - j := by
    rw [List.length_drop, List.length_take]; omega
  cases hS : (o.order.take (i + 1)).drop j with
  | nil => rw [hS] at hlen; simp at hlen; omega
  | cons x M =>
    rw [hS] at hsplit hlen
    have hMl : M.length = i - j := by simp at hlen; omega
    have hA : (o.order.take j).length = j := by rw [List.length_take]; omega
    by_cases hMe : M = []
    · subst hMe
      have hij : i - j = 0 := by simpa using hMl.symm
      refine ⟨[x], List.Perm.refl _, ?_⟩
      unfold tuck
      dsimp only
      rw [hij]
      simp only [List.range'_zero, List.foldl_nil]
      have : (o.order[i]?).elim o.order (fun _ => o.order) = o.order := by cases o.order[i]? <;> rfl
      rw [this]
      conv_lhs => rw [hsplit]
      simp
    · obtain ⟨y, hy⟩ : ∃ y, M.getLast? = some y := ⟨_, List.getLast?_eq_some_getLast hMe⟩
      have := (C60_tuck o (A := o.order.take j) (M := M) (C := o.order.drop (i + 1)) (x := x) (y := y)
        (by conv_lhs => rw [hsplit]
            simp) hy).1
      rw [hA, hMl, show j + (i - j) = i by omega] at this
      refine ⟨M.filter (· ∈ getAncestors o.parents (p + 1) [] y) ++ x :: M.filter (· ∉ getAncestors o.parents (p + 1) [] y),
        ?_, by rw [this]; simp⟩
      have h1 := List.filter_append_perm (fun a => decide (a ∈ getAncestors o.parents (p + 1) [] y)) M
      refine List.perm_middle.trans (List.Perm.cons x ?_)
      simpa using h1

theorem tuck_noop (o : Order p K) (i j : Nat) (hj : i < j) : (tuck o i j).order = o.order := by
  unfold tuck
  dsimp only
  rw [show i - j = 0 by omega]
  cases o.order[i]? <;> rfl

/-! ### update -/

theorem sum_set1 (f : Fin p → K) (z : Fin p) (x : K) : ∑ v, set1 f z x v = ∑ v, f v + (x - f z) := by
  rw [← Finset.add_sum_erase _ _ (Finset.mem_univ z), ← Finset.add_sum_erase _ f (Finset.mem_univ z)]
  have : ∑ v ∈ Finset.univ.erase z, set1 f z x v = ∑ v ∈ Finset.univ.erase z, f v :=
    Finset.sum_congr rfl fun v hv => by unfold set1; rw [if_neg (Finset.ne_of_mem_erase hv)]
  rw [this]
  unfold set1
  rw [if_pos rfl]
  abel

theorem update_fold (sc : Fin p → Finset (Fin p) → K) (o : Order p K) (hnd : o.order.Nodup) (j m : Nat) :
    let r := (List.range' j m).foldl (updateStep sc) (o, 0, 0)
    r.1.order = o.order ∧ r.2.2 - r.2.1 = ∑ v, r.1.scores v - ∑ v, o.scores v ∧
    ∀ v ∈ o.order,
      (j ≤ o.order.idxOf v ∧ o.order.idxOf v < j + m →
        r.1.parents v = trParents sc v (o.order.take (o.order.idxOf v)) ∧
        r.1.scores v = trScore sc v (o.order.take (o.order.idxOf v))) ∧
      (¬ (j ≤ o.order.idxOf v ∧ o.order.idxOf v < j + m) → r.1.parents v = o.parents v ∧ r.1.scores v = o.scores v) := by
  induction m with
  | zero => refine ⟨rfl, by simp, fun v _ => ⟨fun h => by omega, fun _ => ⟨rfl, rfl⟩⟩⟩
  | succ m ih =>
    obtain ⟨h1, h2, h3⟩ := ih
    intro r
    have hr : r = updateStep sc ((List.range' j m).foldl (updateStep sc) (o, 0, 0)) (j + m) := by
      show List.foldl _ _ _ = _
      rw [List.range'_concat, List.foldl_append]
      simp
    generalize (List.range' j m).foldl (updateStep sc) (o, 0, 0) = s at *
    rw [hr]
    unfold updateStep
    rw [h1]
    cases hg : o.order[j + m]? with
    | none =>
      simp only [Option.elim_none]
      refine ⟨h1, h2, fun v hv => ⟨fun h => (h3 v hv).1 ⟨h.1, ?_⟩, fun h => (h3 v hv).2 (by omega)⟩⟩
      have := List.idxOf_lt_length_iff.2 hv
      have := List.getElem?_eq_none_iff.1 hg
      omega
    | some z =>
      simp only [Option.elim_some]
      obtain ⟨hlt, hz⟩ := List.getElem?_eq_some_iff.1 hg
      have hidx : o.order.idxOf z = j + m := by rw [← hz]; exact hnd.idxOf_getElem _ _
      refine ⟨by first | exact h1 | trivial, ?_, fun v hv => ?_⟩
      · rw [sum_set1]
        have e : s.2.2 + trScore sc z (o.order.take (j + m)) - (s.2.1 + s.1.scores z) =
            (s.2.2 - s.2.1) + (trScore sc z (o.order.take (j + m)) - s.1.scores z) := by abel
        rw [e, h2]
        abel
      · by_cases hvz : v = z
        · subst hvz
          refine ⟨fun _ => ?_, fun h => by omega⟩
          simp [set1, hidx]
        · have hne : o.order.idxOf v ≠ j + m := fun h => hvz ((List.idxOf_inj hv).1 (h.trans hidx.symm))
          simp only [set1, if_neg hvz]
          exact ⟨fun h => (h3 v hv).1 (by omega), fun h => (h3 v hv).2 (by omega)⟩

theorem take_perm_of_segment {l M' : List (Fin p)} {i j : Nat} (hi : i < l.length) (hj : j ≤ i)
    (hM : M'.Perm ((l.take (i + 1)).drop j)) : (l.take j ++ M' ++ l.drop (i + 1)).Perm l ∧ M'.length = i + 1 - j := by
  have h1 : l.take j ++ (l.take (i + 1)).drop j = l.take (i + 1) := by
    conv_rhs => rw [← List.take_append_drop j (l.take (i + 1))]
    rw [List.take_take, min_eq_left (by omega)]
  refine ⟨?_, ?_⟩
  · have : (l.take j ++ M' ++ l.drop (i + 1)).Perm (l.take j ++ (l.take (i + 1)).drop j ++ l.drop (i + 1)) :=
      ((List.Perm.refl _).append hM).append (List.Perm.refl _)
    rw [h1, List.take_append_drop] at this
    exact this
  · rw [hM.length_eq, List.length_drop, List.length_take]; omega

/-- positions outside the segment: same index, same predecessors -/
theorem outside_segment {l M' : List (Fin p)} (hnd : l.Nodup) {i j : Nat} (hi : i < l.length) (hj : j ≤ i)
    (hM : M'.Perm ((l.take (i + 1)).drop j)) {v : Fin p} (hv : v ∈ l) :
    let l' := l.take j ++ M' ++ l.drop (i + 1)
    ((j ≤ l.idxOf v ∧ l.idxOf v ≤ i) ↔ (j ≤ l'.idxOf v ∧ l'.idxOf v ≤ i)) ∧
    (¬ (j ≤ l.idxOf v ∧ l.idxOf v ≤ i) → l'.idxOf v = l.idxOf v ∧ ∀ a, a ∈ l'.take (l'.idxOf v) ↔ a ∈ l.take (l.idxOf v)) := by
  intro l'
  obtain ⟨hp, hlen⟩ := take_perm_of_segment hi hj hM
  have hAl : (l.take j).length = j := by rw [List.length_take]; omega
  have h1 : l.take j ++ (l.take (i + 1)).drop j = l.take (i + 1) := by
    conv_rhs => rw [← List.take_append_drop j (l.take (i + 1))]
    rw [List.take_take, min_eq_left (by omega)]
  have hl : l = l.take j ++ ((l.take (i + 1)).drop j ++ l.drop (i + 1)) := by
    rw [← List.append_assoc, h1, List.take_append_drop]
  have hl' : l' = l.take j ++ (M' ++ l.drop (i + 1)) := by simp [l']
  have hSl : ((l.take (i + 1)).drop j).length = i + 1 - j := by rw [List.length_drop, List.length_take]; omega
  generalize hA : l.take j = A at *
  generalize hS : (l.take (i + 1)).drop j = S at *
  generalize hC : l.drop (i + 1) = C at *
  rw [hl]
  rw [hl']
  have hvS : v ∈ M' ↔ v ∈ S := hM.mem_iff
  by_cases hvA : v ∈ A
  · have hlt : A.idxOf v < A.length := List.idxOf_lt_length_iff.2 hvA
    rw [List.idxOf_append_of_mem hvA, List.idxOf_append_of_mem hvA]
    refine ⟨Iff.rfl, fun _ => ⟨rfl, fun a => ?_⟩⟩
    rw [List.take_append_of_le_length hlt.le, List.take_append_of_le_length hlt.le]
  · rw [List.idxOf_append_of_notMem hvA, List.idxOf_append_of_notMem hvA, hAl]
    by_cases hvs : v ∈ S
    · have hvs' := hvS.2 hvs
      rw [List.idxOf_append_of_mem hvs, List.idxOf_append_of_mem hvs']
      have e1 := List.idxOf_lt_length_iff.2 hvs
      have e2 := List.idxOf_lt_length_iff.2 hvs'
      exact ⟨⟨fun _ => by omega, fun _ => by omega⟩, fun h => absurd ⟨by omega, by omega⟩ h⟩
    · have hvs' : v ∉ M' := fun h => hvs (hvS.1 h)
      rw [List.idxOf_append_of_notMem hvs, List.idxOf_append_of_notMem hvs', hSl, hlen]
      refine ⟨Iff.rfl, fun _ => ⟨rfl, fun a => ?_⟩⟩
      have e1 : (A ++ (M' ++ C)).take (j + (i + 1 - j + C.idxOf v)) = A ++ (M' ++ C.take (C.idxOf v)) := by
        rw [← hlen, ← hAl, List.take_length_add_append, List.take_length_add_append]
      have e2 : (A ++ (S ++ C)).take (j + (i + 1 - j + C.idxOf v)) = A ++ (S ++ C.take (C.idxOf v)) := by
        rw [← hSl, ← hAl, List.take_length_add_append, List.take_length_add_append]
      rw [e1, e2]
      simp only [List.mem_append, hM.mem_iff]

theorem Ok.nodup {sc : Fin p → Finset (Fin p) → K} {o : Order p K} (h : Ok sc o) : o.order.Nodup :=
  h.perm.nodup_iff.2 (List.nodup_finRange p)
theorem Ok.mem {sc : Fin p → Finset (Fin p) → K} {o : Order p K} (h : Ok sc o) (v : Fin p) : v ∈ o.order :=
  h.perm.mem_iff.2 (List.mem_finRange v)
theorem Ok.len {sc : Fin p → Finset (Fin p) → K} {o : Order p K} (h : Ok sc o) : o.order.length = p := by
  rw [h.perm.length_eq, List.length_finRange]

/-- a tuck followed by an update keeps the order object right and reports the exact change of the total -/
theorem Ok.move {sc : Fin p → Finset (Fin p) → K} {o : Order p K} (h : Ok sc o) {i : Nat} (hi : i < p) (j : Nat) :
    Ok sc (update sc (tuck o i j) i j).1 ∧
    (update sc (tuck o i j) i j).2 = ∑ v, (update sc (tuck o i j) i j).1.scores v - ∑ v, o.scores v ∧
    ∃ l', (update sc (tuck o i j) i j).1.order = l' ∧ l'.Perm o.order ∧
      (∀ k, k < j ∨ i < k → l'[k]? = o.order[k]?) ∧
      (∀ v, ¬ (j ≤ o.order.idxOf v ∧ o.order.idxOf v ≤ i) →
        (update sc (tuck o i j) i j).1.parents v = o.parents v ∧ (update sc (tuck o i j) i j).1.scores v = o.scores v) := by
  have hil : i < o.order.length := by rw [h.len]; exact hi
  have htp : (tuck o i j).parents = o.parents := rfl
  have hts : (tuck o i j).scores = o.scores := rfl
  by_cases hj : j ≤ i
  · obtain ⟨M', hM, ht⟩ := tuck_segment o i j hil hj
    obtain ⟨hp, hlen⟩ := take_perm_of_segment hil hj hM
    have hnd' : (tuck o i j).order.Nodup := by rw [ht]; exact hp.nodup_iff.2 h.nodup
    obtain ⟨u1, u2, u3⟩ := update_fold sc (tuck o i j) hnd' j (i + 1 - j)
    have hout := fun v => outside_segment h.nodup hil hj hM (h.mem v)
    rw [← ht] at hout hp
    unfold update
    generalize (List.range' j (i + 1 - j)).foldl (updateStep sc) (tuck o i j, 0, 0) = r at *
    have hmem' : ∀ v, v ∈ (tuck o i j).order := fun v => hp.mem_iff.2 (h.mem v)
    rw [hts] at u2
    refine ⟨⟨?_, fun v => ?_, fun v => ?_⟩, u2, _, rfl, ?_, fun k hk => ?_, fun v hv => ?_⟩
    · dsimp only; rw [u1]; exact hp.trans h.perm
    · dsimp only
      rw [u1]
      by_cases hin : j ≤ (tuck o i j).order.idxOf v ∧ (tuck o i j).order.idxOf v < j + (i + 1 - j)
      · rw [((u3 v (hmem' v)).1 hin).1]
      · rw [((u3 v (hmem' v)).2 hin).1, htp]
        obtain ⟨o1, o2⟩ := hout v
        have := (o2 (fun hc => hin (by have := o1.1 hc; omega))).2
        rw [trParents_congr sc v this]
        exact h.parents v
    · dsimp only
      rw [u1]
      by_cases hin : j ≤ (tuck o i j).order.idxOf v ∧ (tuck o i j).order.idxOf v < j + (i + 1 - j)
      · rw [((u3 v (hmem' v)).1 hin).2]
      · rw [((u3 v (hmem' v)).2 hin).2, hts]
        obtain ⟨o1, o2⟩ := hout v
        have := (o2 (fun hc => hin (by have := o1.1 hc; omega))).2
        rw [trScore_congr sc v this]
        exact h.scores v
    · dsimp only; rw [u1]; exact hp
    · dsimp only
      rw [u1, ht]
      have hAl : (o.order.take j).length = j := by rw [List.length_take]; omega
      rcases hk with hk | hk
      · rw [List.append_assoc, List.getElem?_append_left (by omega), List.getElem?_take_of_lt hk]
      · rw [List.getElem?_append_right (by simp only [List.length_append]; omega), List.getElem?_drop]
        congr 1
        simp only [List.length_append]; omega
    · have hin : ¬ (j ≤ (tuck o i j).order.idxOf v ∧ (tuck o i j).order.idxOf v < j + (i + 1 - j)) := by
        intro hc
        exact hv ((hout v).1.2 (by omega))
      exact (u3 v (hmem' v)).2 hin
  · have hu : update sc (tuck o i j) i j = (tuck o i j, 0) := by
      unfold update
      rw [show i + 1 - j = 0 by omega]
      simp
    have hto : tuck o i j = o := by
      have := tuck_noop o i j (by omega)
      cases o
      unfold tuck at this ⊢
      simp only at this ⊢
      rw [this]
    rw [hu, hto]
    exact ⟨h, by simp, _, rfl, List.Perm.refl _, fun _ _ => rfl, fun _ _ => ⟨rfl, rfl⟩⟩

/-- restoring undoes a failed move -/
theorem restore_same {sc : Fin p → Finset (Fin p) → K} {o : Order p K} (h : Ok sc o) {i : Nat} (hi : i < p) (j : Nat)
    {o1 : Order p K} (hs : Same (update sc (tuck o i j) i j).1 o1) : Same o (restore o o1 i j) := by
  obtain ⟨-, -, l', hl', hp, hk, hv⟩ := h.move hi j
  have hlen1 : o1.order.length = o.order.length := by rw [hs.order, hl']; exact hp.length_eq
  have key : ∀ m, j + m ≤ o.order.length → 
      let r := (List.range' j m).foldl (restoreStep o) o1
      (∀ k, j ≤ k ∧ k < j + m → r.order[k]? = o.order[k]?) ∧ (∀ k, ¬ (j ≤ k ∧ k < j + m) → r.order[k]? = o1.order[k]?) ∧
      r.order.length = o.order.length ∧
      ∀ v, (j ≤ o.order.idxOf v ∧ o.order.idxOf v < j + m → r.parents v = o.parents v ∧ r.scores v = o.scores v) ∧
        (¬ (j ≤ o.order.idxOf v ∧ o.order.idxOf v < j + m) → r.parents v = o1.parents v ∧ r.scores v = o1.scores v) := by
    intro m
    induction m with
    | zero => intro _; exact ⟨fun k hk => by omega, fun _ _ => rfl, hlen1, fun v => ⟨fun h => by omega, fun _ => ⟨rfl, rfl⟩⟩⟩
    | succ m ih =>
      intro hm
      obtain ⟨h1, h2, h3, h4⟩ := ih (by omega)
      intro r
      have hr : r = restoreStep o ((List.range' j m).foldl (restoreStep o) o1) (j + m) := by
        show List.foldl _ _ _ = _
        rw [List.range'_concat, List.foldl_append]
        simp only [List.foldl_cons, List.foldl_nil, Nat.one_mul]
      generalize (List.range' j m).foldl (restoreStep o) o1 = s at *
      have hlt : j + m < o.order.length := by omega
      unfold restoreStep at hr
      rw [List.getElem?_eq_getElem hlt] at hr
      simp only [Option.elim_some] at hr
      generalize hz : o.order[j + m] = z at hr
      have hidx : o.order.idxOf z = j + m := by rw [← hz]; exact h.nodup.idxOf_getElem _ _
      rw [hr]
      refine ⟨fun k hk => ?_, fun k hk => ?_, by simp [h3], fun v => ?_⟩
      · by_cases hkm : k = j + m
        · subst hkm
          simp only
          rw [List.getElem?_set_self (by omega), List.getElem?_eq_getElem hlt, hz]
        · simp only
          rw [List.getElem?_set_ne (by omega)]
          exact h1 k (by omega)
      · simp only
        rw [List.getElem?_set_ne (by omega)]
        exact h2 k (by omega)
      · by_cases hvz : v = z
        · subst hvz
          refine ⟨fun _ => by simp [set1], fun h => by omega⟩
        · have hne : o.order.idxOf v ≠ j + m := fun hh => hvz ((List.idxOf_inj (h.mem v)).1 (hh.trans hidx.symm))
          simp only [set1, if_neg hvz]
          exact ⟨fun h => (h4 v).1 (by omega), fun h => (h4 v).2 (by omega)⟩
  have hil : i < o.order.length := by rw [h.len]; exact hi
  by_cases hj : j ≤ i
  · obtain ⟨k1, k2, k3, k4⟩ := key (i + 1 - j) (by omega)
    have hre : restore o o1 i j = (List.range' j (i + 1 - j)).foldl (restoreStep o) o1 := rfl
    rw [← hre] at k1 k2 k3 k4
    refine ⟨?_, fun v => ?_, ?_⟩
    · apply List.ext_getElem?
      intro k
      by_cases hkk : j ≤ k ∧ k < j + (i + 1 - j)
      · exact k1 k hkk
      · rw [k2 k hkk, hs.order, hl']
        exact hk k (by omega)
    · by_cases hin : j ≤ o.order.idxOf v ∧ o.order.idxOf v < j + (i + 1 - j)
      · rw [((k4 v).1 hin).1]
      · rw [((k4 v).2 hin).1]
        refine (hs.parents v).trans ?_
        rw [(hv v (by omega)).1]
    · funext v
      by_cases hin : j ≤ o.order.idxOf v ∧ o.order.idxOf v < j + (i + 1 - j)
      · exact ((k4 v).1 hin).2
      · rw [((k4 v).2 hin).2, hs.scores]
        exact (hv v (by omega)).2
  · have hre : restore o o1 i j = o1 := by
      unfold restore
      rw [show i + 1 - j = 0 by omega]
      rfl
    have hu : (update sc (tuck o i j) i j).1 = o := by
      have h1 : update sc (tuck o i j) i j = (tuck o i j, 0) := by
        unfold update
        rw [show i + 1 - j = 0 by omega]
        simp
      have hto : tuck o i j = o := by
        have := tuck_noop o i j (by omega)
        cases o
        unfold tuck at this ⊢
        simp only at this ⊢
        rw [this]
      rw [h1, hto]
    rw [hre]
    rw [hu] at hs
    exact hs

theorem Ok.sum {sc : Fin p → Finset (Fin p) → K} {o : Order p K} (h : Ok sc o) :
    ∑ v, o.scores v = total (trScore sc) o.order := by
  rw [total_eq_sum sc h.perm]
  refine Finset.sum_congr rfl fun v _ => ?_
  rw [h.scores v, (C61_trace_result sc v _).2.2.1]
  rfl

theorem dfs_spec {sc : Fin p → Finset (Fin p) → K} {eps : K} (he : 0 ≤ eps) {n : Nat} {o o' : Order p K} {b : Bool}
    (hd : Dfs sc eps n o b o') (h : Ok sc o) :
    Ok sc o' ∧ (b = false → Same o o') ∧
    (b = true → total (trScore sc) o.order + eps < total (trScore sc) o'.order + n • eps) := by
  induction hd with
  | done n o => exact ⟨h, fun _ => Same.refl o, by simp⟩
  | @shuffle n o b o' y l hl hd ih =>
    have hs : Same o { o with parents := set1 o.parents y l } := by
      refine ⟨rfl, fun v => ?_, rfl⟩
      simp only [set1]
      split
      · rename_i hv; subst hv; exact hl
      · exact List.Perm.refl _
    obtain ⟨i1, i2, i3⟩ := ih (h.same hs)
    exact ⟨i1, fun hb => hs.trans (i2 hb), i3⟩
  | @improve n o i j hi hb =>
    obtain ⟨m1, m2, -⟩ := h.move hi j
    refine ⟨m1, by simp, fun _ => ?_⟩
    rw [m2, h.sum, m1.sum] at hb
    have h1 : total (trScore sc) o.order + eps < total (trScore sc) (update sc (tuck o i j) i j).1.order := by
      rw [lt_sub_iff_add_lt'] at hb; exact hb
    exact h1.trans_le (le_add_of_nonneg_right (nsmul_nonneg he n))
  | @deeper n o o' i j hi hb _ ih =>
    obtain ⟨m1, m2, -⟩ := h.move hi j
    obtain ⟨i1, -, i3⟩ := ih m1
    refine ⟨i1, by simp, fun _ => ?_⟩
    rw [m2, h.sum, m1.sum] at hb
    have h1 : total (trScore sc) o.order < total (trScore sc) (update sc (tuck o i j) i j).1.order + eps := by
      rw [neg_lt_iff_pos_add, sub_add_eq_add_sub, sub_pos] at hb
      exact hb
    have h2 := i3 rfl
    rw [succ_nsmul, ← add_assoc]
    refine lt_of_lt_of_le (add_lt_add_left h1 eps) ?_
    exact add_le_add_left h2.le eps
  | @back n o b o' i j hi _ ih =>
    have hs := restore_same h hi j (Same.refl _)
    obtain ⟨i1, i2, i3⟩ := ih (h.same hs)
    rw [hs.order] at i3
    exact ⟨i1, fun hb => hs.trans (i2 hb), i3⟩
  | @deeperBack n o b o1 o' i j hi _ _ _ ih1 ih2 =>
    obtain ⟨m1, -, -⟩ := h.move hi j
    have hs := restore_same h hi j ((ih1 m1).2.1 rfl)
    obtain ⟨i1, i2, i3⟩ := ih2 (h.same hs)
    rw [hs.order] at i3
    exact ⟨i1, fun hb => hs.trans (i2 hb), i3⟩

theorem ok_init (sc : Fin p → Finset (Fin p) → K) {l : List (Fin p)} (hl : l.Perm (List.finRange p)) :
    Ok sc (graspInit sc l) := ⟨hl, fun _ => List.Perm.refl _, fun _ => rfl⟩

theorem run_ok {sc : Fin p → Finset (Fin p) → K} {eps : K} (he : 0 ≤ eps) {depth : Nat} {o o' : Order p K}
    (hr : GraspRun sc eps depth o o') (h : Ok sc o) : Ok sc o' := by
  induction hr with
  | stop o o' hd => exact (dfs_spec he hd h).1
  | more o o1 o' hd _ ih => exact ih (dfs_spec he hd h).1

/-- **C60.** Whatever the shuffles and whatever is tried, when GRaSP's loop ends the order is a permutation, every recorded
local score is the score of the recorded parents, the parents of a variable precede it, so that they form a DAG, and the
returned graph is the CPDAG of this DAG. -/
theorem C60_grasp_dag {sc : Fin p → Finset (Fin p) → K} {eps : K} (he : 0 ≤ eps) {depth : Nat} {l : List (Fin p)}
    (hl : l.Perm (List.finRange p)) {o : Order p K} (hr : GraspRun sc eps depth (graspInit sc l) o) :
    o.order.Perm (List.finRange p) ∧ (∀ v, o.scores v = sc v (o.parents v).toFinset) ∧
    (∀ a b, a ∈ o.parents b → o.order.idxOf a < o.order.idxOf b) ∧ Acyclic (fun a b => a ∈ o.parents b) ∧
    ∃ H, (∀ fuel, p * p + p < fuel → (parentsGraph o.parents).dag2cpdag fuel = .ok H) ∧
      ∀ a b, (H.g a b = .null ↔ ¬ Adj (fun a b => a ∈ o.parents b) a b) ∧
        (H.Arrow a b ↔ Compelled (fun a b => a ∈ o.parents b) a b) := by
  have h := run_ok he hr (ok_init sc hl)
  have hbef : ∀ a b, a ∈ o.parents b → o.order.idxOf a < o.order.idxOf b := fun a b hab =>
    finalParents_before sc o.order a b ((h.parents b).mem_iff.1 hab)
  have hac := acyclic_of_order hbef
  obtain ⟨hd, hA⟩ := parentsGraph_isDag hac
  obtain ⟨H, hH, hs⟩ := C25_essential_graph hd
  have hE : (parentsGraph o.parents).Arrow = fun a b => a ∈ o.parents b := by
    funext a b; exact propext (hA a b)
  rw [hE] at hs
  refine ⟨h.perm, fun v => ?_, hbef, hac, H, hH, fun a b => ⟨(hs a b).1, (hs a b).2.1⟩⟩
  rw [h.scores v, (C61_trace_result sc v _).2.2.1]
  congr 1
  ext a
  rw [List.mem_toFinset, List.mem_toFinset]
  exact ((h.parents v).mem_iff).symm

/-- `k` successful rounds of the loop -/
inductive Rounds (sc : Fin p → Finset (Fin p) → K) (eps : K) (depth : Nat) : Nat → Order p K → Order p K → Prop
  | zero (o) : Rounds sc eps depth 0 o o
  | succ {k o o1 o'} : Dfs sc eps depth o true o1 → Rounds sc eps depth k o1 o' → Rounds sc eps depth (k + 1) o o'

/-- **C60** (score, what is true). A successful round cannot lose more than `depth - 1` tolerances, where `dfs` starts with
`depth` (the argument of `grasp` minus 1): `total + eps < total' + depth • eps`. Missing: that it never loses anything; a
chain of moves that each lose less than the tolerance may precede the improving one. -/
theorem C60_grasp_score_partial {sc : Fin p → Finset (Fin p) → K} {eps : K} (he : 0 ≤ eps) {depth : Nat} {l : List (Fin p)}
    (hl : l.Perm (List.finRange p)) {k : Nat} {o o' : Order p K} (hr : Rounds sc eps depth k (graspInit sc l) o)
    (hd : Dfs sc eps depth o true o') :
    total (trScore sc) o.order + eps < total (trScore sc) o'.order + depth • eps := by
  have : ∀ {k : Nat} {o0 o : Order p K}, Rounds sc eps depth k o0 o → Ok sc o0 → Ok sc o := by
    intro k o0 o hr
    induction hr with
    | zero => exact id
    | succ hd _ ih => exact fun h => ih (dfs_spec he hd h).1
  exact (dfs_spec he hd (this hr (ok_init sc hl))).2.2 rfl

/-- with `depth ≤ 2` in `grasp` (so `dfs` starts with at most 1) the score strictly rises -/
theorem C60_grasp_shallow {sc : Fin p → Finset (Fin p) → K} {eps : K} (he : 0 ≤ eps) {depth : Nat} (hdp : depth ≤ 1)
    {l : List (Fin p)} (hl : l.Perm (List.finRange p)) {k : Nat} {o o' : Order p K}
    (hr : Rounds sc eps depth k (graspInit sc l) o) (hd : Dfs sc eps depth o true o') :
    total (trScore sc) o.order < total (trScore sc) o'.order := by
  have h := C60_grasp_score_partial he hl hr hd
  have hle : depth • eps ≤ eps := by
    rcases Nat.le_one_iff_eq_zero_or_eq_one.1 hdp with rfl | rfl
    · rw [zero_nsmul]; exact he
    · rw [one_nsmul]
  exact lt_of_add_lt_add_right (h.trans_le (add_le_add_right hle _))

/-- If differences of total scores are never within the tolerance unless they are zero, a successful `dfs` raises the score by
more than the tolerance, for every depth. -/
theorem dfs_improves {sc : Fin p → Finset (Fin p) → K} {eps : K} (he : 0 ≤ eps)
    (hsep : ∀ l l' : List (Fin p), l.Perm (List.finRange p) → l'.Perm (List.finRange p) →
      total (trScore sc) l < total (trScore sc) l' + eps → total (trScore sc) l ≤ total (trScore sc) l')
    {n : Nat} {o o' : Order p K} {b : Bool} (hd : Dfs sc eps n o b o') (h : Ok sc o) (hb : b = true) :
    total (trScore sc) o.order + eps < total (trScore sc) o'.order := by
  induction hd with
  | done n o => simp at hb
  | @shuffle n o b o' y l hl hd ih =>
    have hs : Same o { o with parents := set1 o.parents y l } := by
      refine ⟨rfl, fun v => ?_, rfl⟩
      simp only [set1]
      split
      · rename_i hv; subst hv; exact hl
      · exact List.Perm.refl _
    exact ih (h.same hs) hb
  | @improve n o i j hi hbump =>
    obtain ⟨m1, m2, -⟩ := h.move hi j
    rw [m2, h.sum, m1.sum] at hbump
    rw [lt_sub_iff_add_lt'] at hbump; exact hbump
  | @deeper n o o' i j hi hbump _ ih =>
    obtain ⟨m1, m2, -⟩ := h.move hi j
    rw [m2, h.sum, m1.sum] at hbump
    have h1 : total (trScore sc) o.order < total (trScore sc) (update sc (tuck o i j) i j).1.order + eps := by
      rw [neg_lt_iff_pos_add, sub_add_eq_add_sub, sub_pos] at hbump
      exact hbump
    have h2 := hsep _ _ h.perm m1.perm h1
    exact lt_of_le_of_lt (add_le_add_left h2 eps) (ih m1 rfl)
  | @back n o b o' i j hi _ ih =>
    have hs := restore_same h hi j (Same.refl _)
    have := ih (h.same hs) hb
    rw [hs.order] at this
    exact this
  | @deeperBack n o b o1 o' i j hi _ hd1 _ _ ih2 =>
    obtain ⟨m1, -, -⟩ := h.move hi j
    have hs := restore_same h hi j ((dfs_spec he hd1 m1).2.1 rfl)
    have := ih2 (h.same hs) hb
    rw [hs.order] at this
    exact this

/-- **C60** (termination). If total scores that differ by less than the tolerance are equal, then no run has more successful
rounds than there are orders with a better score than the initial one; so the `while` loop ends for every random schedule. -/
theorem C60_grasp_terminates {sc : Fin p → Finset (Fin p) → K} {eps : K} (he : 0 ≤ eps)
    (hsep : ∀ l l' : List (Fin p), l.Perm (List.finRange p) → l'.Perm (List.finRange p) →
      total (trScore sc) l < total (trScore sc) l' + eps → total (trScore sc) l ≤ total (trScore sc) l')
    {depth : Nat} {l : List (Fin p)} (hl : l.Perm (List.finRange p)) {k : Nat} {o : Order p K}
    (hr : Rounds sc eps depth k (graspInit sc l) o) : k ≤ betterCount (trScore sc) l := by
  have key : ∀ {k : Nat} {o0 o : Order p K}, Rounds sc eps depth k o0 o → Ok sc o0 → k ≤ betterCount (trScore sc) o0.order := by
    intro k o0 o hr
    induction hr with
    | zero => intro _; omega
    | @succ k o o1 o' hd _ ih =>
      intro h
      have h1 := (dfs_spec he hd h).1
      have h2 := dfs_improves he hsep hd h rfl
      have h3 : total (trScore sc) o.order < total (trScore sc) o1.order :=
        lt_of_le_of_lt (le_add_of_nonneg_right he) h2
      have := betterCount_lt h1.perm h3
      have := ih h1
      omega
  exact key hr (ok_init sc hl)

/-! ### Non-vacuity -/

/-- two variables: `1` gains 5 from parent `0`, `0` gains 10 from parent `1` -/
def twoScore (v : Fin 2) (S : Finset (Fin 2)) : Int :=
  if v = 0 then (if 1 ∈ S then 10 else 0) else (if 0 ∈ S then 5 else 0)

example : (graspInit twoScore [0, 1]).parents 1 = [0] := by decide +kernel
example : (tuck (graspInit twoScore [0, 1]) 1 0).order = [1, 0] ∧
    (update twoScore (tuck (graspInit twoScore [0, 1]) 1 0) 1 0).2 = 5 := by decide +kernel

/-- a complete run of GRaSP with one successful round; its order is reversed -/
example : ∃ o, GraspRun twoScore (1 : Int) 2 (graspInit twoScore [0, 1]) o ∧ o.order = [1, 0] ∧ o.parents 0 = [1] :=
  ⟨_, GraspRun.more _ _ _ (Dfs.improve 1 0 (by decide) (by decide +kernel)) (GraspRun.stop _ _ (Dfs.done _ _)),
    by decide +kernel, by decide +kernel⟩

/-- the separation hypothesis of `C60_grasp_terminates` holds for integer scores and tolerance 1 -/
example (sc : Fin p → Finset (Fin p) → Int) (l l' : List (Fin p)) :
    total (trScore sc) l < total (trScore sc) l' + 1 → total (trScore sc) l ≤ total (trScore sc) l' := by omega

end Perm
end CL
