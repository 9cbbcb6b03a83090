import Verif.Model.Parce
import Verif.Props.Lingam

/-!
# C89–C91: BottomUpParceLiNGAM
-/
namespace CL
namespace Parce
open Lingam Relation
variable {K Q : Type} [LinearOrder K] [Add K] [LinearOrder Q] {D : Data K Q}

/-! ### the loop -/

theorem exo_mem (U l : List Nat) (s : Option (Nat × Q × K)) (b : Nat × Q × K) (h : l.foldl (exoStep D U) s = some b) : b.1 ∈ l ∨ s = some b := by
  induction l generalizing s with
  | nil => exact Or.inr h
  | cons j l ih =>
    rcases ih _ h with h' | h'
    · exact Or.inl (by simp [h'])
    · unfold exoStep at h'
      split at h'
      · simp only [Option.some.injEq] at h'
        left; rw [← h']; simp
      · exact Or.inr h'

theorem candidates_sub (aknw : Option Prior) (orders : List (Nat × Nat)) (U : List Nat) : (candidates aknw orders U).Sublist U := by
  unfold candidates
  split
  · exact List.filter_sublist
  · exact List.Sublist.refl _

theorem pick_mem {aknw : Option Prior} {s : St Q} {m : Nat × Q} (h : pick D aknw s = some m) : m.1 ∈ candidates aknw s.orders s.U := by
  unfold pick at h
  split at h
  · rw [Option.map_eq_some_iff] at h
    obtain ⟨a, h1, h2⟩ := h
    rw [← h2]
    exact List.mem_of_head? h1
  · unfold findExo at h
    rw [Option.map_eq_some_iff] at h
    obtain ⟨b, h1, h2⟩ := h
    rw [← h2]
    rcases exo_mem _ _ _ _ h1 with h | h
    · exact h
    · cases h

/-- invariant of the search -/
structure Inv (n : Nat) (s : St Q) : Prop where
  rest : s.U = (List.range n).filter (· ∉ s.K.map Prod.fst)
  nodup : (s.K.map Prod.fst).Nodup
  lt : ∀ v ∈ s.K.map Prod.fst, v < n

theorem Inv.mem {n : Nat} {s : St Q} (h : Inv n s) (v : Nat) : v ∈ s.U ↔ v < n ∧ v ∉ s.K.map Prod.fst := by
  rw [h.rest, List.mem_filter, List.mem_range, decide_eq_true_eq]

theorem Inv.nodupU {n : Nat} {s : St Q} (h : Inv n s) : s.U.Nodup := by
  rw [h.rest]; exact List.nodup_range.filter _

theorem filter_ne_length {l : List Nat} (hl : l.Nodup) {m : Nat} (hm : m ∈ l) : (l.filter (· ≠ m)).length + 1 = l.length :=
  (filter_ne_perm hl hm).length_eq

theorem Inv.place {n : Nat} {s : St Q} (h : Inv n s) (aknw : Option Prior) {m : Nat × Q} (hm : m.1 ∈ s.U) : Inv n (place aknw s m) where
  rest := by
    show s.U.filter (· ≠ m.1) = _
    conv_lhs => rw [h.rest]
    rw [List.filter_filter]
    refine List.filter_congr fun x _ => ?_
    show _ = decide (x ∉ (m :: s.K).map Prod.fst)
    rw [List.map_cons]
    simp only [List.mem_cons, not_or]
    by_cases h1 : x = m.1 <;> by_cases h2 : x ∈ s.K.map Prod.fst <;> simp [h1, h2]
  nodup := by
    show ((m :: s.K).map Prod.fst).Nodup
    rw [List.map_cons, List.nodup_cons]
    exact ⟨((h.mem _).1 hm).2, h.nodup⟩
  lt := by
    intro v hv
    rcases List.mem_cons.1 (show v ∈ m.1 :: s.K.map Prod.fst from hv) with rfl | hv
    · exact ((h.mem _).1 hm).1
    · exact h.lt v hv

/-- how the search ends -/
def Ended (D : Data K Q) (aknw : Option Prior) (s r : St Q) : Prop :=
  2 ≤ s.U.length ∧ r = s ∧ (∀ m, pick D aknw s = some m → m.2 < D.thresh) ∨
  s.U.length = 1 ∧ r = ⟨s.orders, [], s.U.map (fun v => (v, D.zeroQ)) ++ s.K⟩

theorem search_ends {n : Nat} {aknw : Option Prior} {P : St Q → Prop}
    (hP : ∀ s m, P s → Inv n s → 2 ≤ s.U.length → pick D aknw s = some m → D.thresh ≤ m.2 → P (place aknw s m)) :
    ∀ (f : Nat) (s : St Q), Inv n s → 2 ≤ s.U.length → s.U.length ≤ f → P s →
      ∃ s' r, searchLoop D aknw f s = some r ∧ Inv n s' ∧ P s' ∧ Ended D aknw s' r := by
  intro f
  induction f with
  | zero => intro s _ h1 h2; omega
  | succ f ih =>
    intro s hI h2 hf hs
    rw [searchLoop]
    cases hp : pick D aknw s with
    | none => exact ⟨s, s, rfl, hI, hs, Or.inl ⟨h2, rfl, fun m hm => by rw [hp] at hm; cases hm⟩⟩
    | some m =>
      rw [Option.elim_some]
      by_cases ht : D.thresh ≤ m.2
      · rw [if_pos ht]
        have hm : m.1 ∈ s.U := (candidates_sub _ _ _).subset (pick_mem hp)
        have hlen : (place aknw s m).U.length + 1 = s.U.length := filter_ne_length hI.nodupU hm
        have hI' := hI.place aknw hm
        have hs' := hP s m hs hI h2 hp ht
        by_cases hl : (place aknw s m).U.length ≤ 1
        · rw [if_pos hl]
          exact ⟨_, _, rfl, hI', hs', Or.inr ⟨by omega, rfl⟩⟩
        · rw [if_neg hl]
          exact ih _ hI' (by omega) (by omega) hs'
      · rw [if_neg ht]
        refine ⟨s, s, rfl, hI, hs, Or.inl ⟨h2, rfl, fun m' hm' => ?_⟩⟩
        rw [hp] at hm'
        simp only [Option.some.injEq] at hm'
        rw [← hm']; exact not_le.1 ht

theorem inv_init (n : Nat) (orders : List (Nat × Nat)) : Inv n (⟨orders, List.range n, []⟩ : St Q) :=
  ⟨by simp, by simp, by simp⟩

/-- the final list of placed variables -/
theorem ended_final {n : Nat} {aknw : Option Prior} {s r : St Q} (hI : Inv n s) (he : Ended D aknw s r) :
    (r.K.map Prod.fst).Nodup ∧ (∀ v ∈ r.K.map Prod.fst, v < n) ∧ ((List.range n).filter (· ∉ r.K.map Prod.fst)).length ≠ 1 := by
  rcases he with ⟨h2, rfl, -⟩ | ⟨h1, rfl⟩
  · refine ⟨hI.nodup, hI.lt, ?_⟩
    rw [← hI.rest]; omega
  · obtain ⟨u, hu⟩ := List.length_eq_one_iff.1 h1
    have hmem := (hI.mem u).1 (by rw [hu]; simp)
    rw [hu]
    simp only [List.map_cons, List.map_nil, List.cons_append, List.nil_append]
    refine ⟨List.nodup_cons.2 ⟨hmem.2, hI.nodup⟩, fun v hv => ?_, ?_⟩
    · rcases List.mem_cons.1 hv with rfl | hv
      · exact hmem.1
      · exact hI.lt v hv
    · have : (List.range n).filter (· ∉ u :: s.K.map Prod.fst) = [] := by
        rw [List.filter_eq_nil_iff]
        intro v hv
        have hv' : v < n := List.mem_range.1 hv
        simp only [List.mem_cons, not_or, decide_eq_true_eq, not_and, not_not]
        intro hvu
        by_contra hn
        have := (hI.mem v).2 ⟨hv', hn⟩
        rw [hu, List.mem_singleton] at this
        exact hvu this
      rw [this]; simp

/-! ### the adjacency matrix -/

theorem predictorsOf_sub {pk : Option Prior} {before : List Item} {t p : Nat} (h : p ∈ predictorsOf pk before t) :
    p ∈ before.flatMap Item.vars ∧ ∀ k, pk = some k → k t p ≠ some 0 := by
  unfold predictorsOf at h
  cases pk with
  | none => exact ⟨h, by simp⟩
  | some k =>
    simp only [List.mem_filter, decide_eq_true_eq] at h
    refine ⟨h.1, ?_⟩
    rintro k' ⟨⟩
    exact h.2.2

theorem regress_ne {R : Type} [Zero R] (coef : Nat → List Nat → Nat → R) (pk : Option Prior) (l before : List Item) (B : Nat → Nat → R) (a b : Nat) :
    (∃ l1 l2, l = l1 ++ .var a :: l2 ∧ b ∈ predictorsOf pk (before ++ l1) a) ∨ regress coef pk before l B a b = B a b := by
  induction l generalizing before B with
  | nil => exact Or.inr rfl
  | cons i l ih =>
    rw [regress]
    rcases ih (before ++ [i]) _ with ⟨l1, l2, h1, h2⟩ | h
    · exact Or.inl ⟨i :: l1, l2, by rw [h1]; rfl, by simpa using h2⟩
    · rw [h]
      split
      · rename_i hc
        exact Or.inl ⟨[], l, by rw [hc.1]; rfl, by simpa using hc.2⟩
      · exact Or.inr rfl

/-- the unknown block and the ordered variables -/
theorem order_shape (n : Nat) (bot : List Nat) (h1 : ((List.range n).filter (· ∉ bot)).length ≠ 1) :
    causalOrder n bot = (if (List.range n).filter (· ∉ bot) = [] then [] else [.unknown ((List.range n).filter (· ∉ bot))]) ++ bot.map .var := by
  unfold causalOrder
  congr 1
  by_cases h : (List.range n).filter (· ∉ bot) = []
  · rw [h, if_neg (by simp), if_pos rfl]
  · have : ((List.range n).filter (· ∉ bot)).length ≠ 0 := fun e => h (List.length_eq_zero_iff.1 e)
    rw [if_pos (by omega), if_neg h]

theorem vars_map_var (l : List Nat) : (l.map Item.var).flatMap Item.vars = l := by
  induction l with
  | nil => rfl
  | cons a l ih => simp [Item.vars, ih] at *

theorem mark_none {R : Type} {order : List Item} {B : Nat → Nat → R} {a b : Nat} : mark order B a b = none ↔ ∃ l, .unknown l ∈ order ∧ a ∈ l ∧ b ∈ l ∧ a ≠ b := by
  unfold mark
  simp only [List.any_eq_true]
  constructor
  · intro h
    split at h
    · rename_i hc
      obtain ⟨i, hi, hb⟩ := hc
      cases i with
      | unknown l => exact ⟨l, hi, of_decide_eq_true hb⟩
      | var v => cases hb
    · cases h
  · rintro ⟨l, hl, h⟩
    rw [if_pos ⟨.unknown l, hl, decide_eq_true h⟩]

theorem mark_some {R : Type} {order : List Item} {B : Nat → Nat → R} {a b : Nat} {x : R} (h : mark order B a b = some x) : B a b = x := by
  unfold mark at h
  split at h
  · cases h
  · exact Option.some.inj h

/-- an entry that is neither NaN nor zero points from an earlier to a later variable -/
theorem adjacency_ne {R : Type} [Zero R] (coef : Nat → List Nat → Nat → R) (pk : Option Prior) {unk bot : List Nat} {a b : Nat} {x : R}
    (h : adjacency coef pk ((if unk = [] then [] else [.unknown unk]) ++ bot.map .var) a b = some x) (hx : x ≠ 0) :
    a ∈ bot ∧ (b ∈ unk ∨ Before bot b a) ∧ ∀ k, pk = some k → k a b ≠ some 0 := by
  have h' := mark_some h
  rcases regress_ne coef pk _ _ (fun _ _ => (0 : R)) a b with ⟨l1, l2, h1, h2⟩ | h0
  swap
  · rw [h0] at h'; exact absurd h'.symm hx
  obtain ⟨g1, g2⟩ := predictorsOf_sub h2
  have split : ∀ (m1 m2 : List Item), bot.map Item.var = m1 ++ .var a :: m2 → a ∈ bot ∧ ∀ b ∈ m1.flatMap Item.vars, Before bot b a := by
    intro m1 m2 hm
    obtain ⟨b1, b2', hb, rfl, hb2⟩ := List.map_eq_append_iff.1 hm
    obtain ⟨a', b2, rfl, ha', -⟩ := List.map_eq_cons_iff.1 hb2
    cases ha'
    refine ⟨by rw [hb]; simp, fun b hb' => ?_⟩
    rw [vars_map_var] at hb'
    rw [hb]
    obtain ⟨c1, c2, rfl⟩ := List.append_of_mem hb'
    show [b, a].Sublist _
    refine List.Sublist.append (l₁ := [b]) (r₁ := [a]) ?_ ?_
    · exact List.singleton_sublist.2 (by simp)
    · exact List.singleton_sublist.2 (by simp)
  by_cases hu : unk = []
  · rw [if_pos hu, List.nil_append] at h1 g1
    have := split (((bot.map Item.var).take 1) ++ l1) l2 (by rw [List.append_assoc, ← h1, List.take_append_drop])
    exact ⟨this.1, Or.inr (this.2 b g1), g2⟩
  · rw [if_neg hu] at h1 g1
    simp only [List.singleton_append, List.drop_succ_cons, List.drop_zero, List.take_succ_cons, List.take_zero] at h1 g1
    have := split l1 l2 h1
    refine ⟨this.1, ?_, g2⟩
    rw [List.flatMap_cons, List.mem_append] at g1
    rcases g1 with g1 | g1
    · exact Or.inl g1
    · exact Or.inr (this.2 b g1)

/-! ### C89 -/

/-- **C89**. For two or more variables `fit` always ends (whatever the tests, the coefficients, and the state the object is left in by earlier fits). The causal order consists of
a list `unk` of no or at least two variables of unknown order, followed by the other variables, each variable once. The adjacency matrix is NaN exactly between two
variables of `unk`; its other non-zero entries point from earlier to later variables, so they form no directed cycle. Each variable placed by a test has a p-value
that is not below the corrected level. -/
theorem C89_fit {R : Type} [Zero R] (D : Data K Q) (coef : Nat → List Nat → Nat → R) {n : Nat} (hn : 2 ≤ n) (o : Obj) :
    ∃ (r : Fitted Q R) (unk bot : List Nat), fit D coef n o = some r ∧
      r.order = (if unk = [] then [] else [.unknown unk]) ++ bot.map .var ∧ (unk ++ bot).Perm (List.range n) ∧ unk.length ≠ 1 ∧
      (∀ a b, r.B a b = none ↔ a ≠ b ∧ a ∈ unk ∧ b ∈ unk) ∧
      (∀ a b x, r.B a b = some x → x ≠ 0 → a ∈ bot ∧ (b ∈ unk ∨ Before bot b a)) ∧
      (∀ v, ¬ TransGen (fun b a => ∃ x, r.B a b = some x ∧ x ≠ 0) v v) ∧
      r.ps.length = bot.length ∧ ∀ k p, r.ps[k]? = some p → D.thresh ≤ p ∨ unk = [] ∧ k = 0 ∧ p = D.zeroQ := by
  obtain ⟨s, r, hr, hI, hps, he⟩ := search_ends (D := D) (aknw := o.aknw) (n := n) (P := fun s => ∀ q ∈ s.K, D.thresh ≤ q.2)
    (fun s m hs _ _ _ ht q hq => by
      rcases List.mem_cons.1 (show q ∈ m :: s.K from hq) with rfl | hq
      · exact ht
      · exact hs q hq) n ⟨o.orders, List.range n, []⟩ (inv_init n o.orders) (by simpa using hn) (by simp) (by simp)
  obtain ⟨hnd, hlt, hlen⟩ := ended_final hI he
  set bot := r.K.map Prod.fst with hbot
  set unk := (List.range n).filter (· ∉ bot) with hunk
  have horder := order_shape n bot hlen
  rw [← hunk] at horder
  have hB : ∀ a b x, adjacency coef o.aknw (causalOrder n bot) a b = some x → x ≠ 0 → a ∈ bot ∧ (b ∈ unk ∨ Before bot b a) := by
    intro a b x h hx
    rw [horder] at h
    obtain ⟨h1, h2, -⟩ := adjacency_ne coef o.aknw h hx
    exact ⟨h1, h2⟩
  have hdis : ∀ v, v ∈ unk → v ∉ bot := fun v hv => by
    rw [hunk, List.mem_filter] at hv
    simpa using hv.2
  refine ⟨⟨⟨o.aknw, r.orders⟩, causalOrder n bot, r.K.map Prod.snd, adjacency coef o.aknw (causalOrder n bot)⟩, unk, bot, ?_, horder, ?_, hlen, fun a b => ?_, hB,
    fun v hv => ?_, by simp [hbot], fun k p hp => ?_⟩
  · unfold fit
    rw [if_neg (by omega), hr]
    rfl
  · refine (List.perm_ext_iff_of_nodup ?_ List.nodup_range).2 fun v => ?_
    · refine List.nodup_append.2 ⟨List.nodup_range.filter _, hnd, fun a ha b hb e => ?_⟩
      subst e
      exact hdis a ha hb
    · rw [List.mem_append, hunk, List.mem_filter, List.mem_range]
      simp only [decide_eq_true_eq]
      constructor
      · rintro (h | h)
        · exact h.1
        · exact hlt v h
      · intro h
        by_cases hv : v ∈ bot
        · exact Or.inr hv
        · exact Or.inl ⟨h, hv⟩
  · show mark _ _ a b = none ↔ _
    rw [mark_none, horder]
    constructor
    · rintro ⟨l, hl, h1, h2, h3⟩
      rw [List.mem_append] at hl
      rcases hl with hl | hl
      · split at hl
        · cases hl
        · rw [List.mem_singleton] at hl
          cases hl
          exact ⟨h3, h1, h2⟩
      · simp at hl
    · rintro ⟨h1, h2, h3⟩
      refine ⟨unk, ?_, h2, h3, h1⟩
      rw [if_neg (List.ne_nil_of_mem h2)]
      simp
  · have key : ∀ a b, TransGen (fun b a => ∃ x, adjacency coef o.aknw (causalOrder n bot) a b = some x ∧ x ≠ 0) a b → b ∈ bot ∧ (a ∈ bot → bot.idxOf a < bot.idxOf b) := by
      intro a b hab
      induction hab with
      | single h =>
        obtain ⟨x, h1, h2⟩ := h
        obtain ⟨g1, g2⟩ := hB _ _ x h1 h2
        refine ⟨g1, fun ha => ?_⟩
        rcases g2 with g2 | g2
        · exact absurd ha (hdis _ g2)
        · exact before_idx hnd g2
      | tail _ h ih =>
        obtain ⟨x, h1, h2⟩ := h
        obtain ⟨g1, g2⟩ := hB _ _ x h1 h2
        refine ⟨g1, fun ha => ?_⟩
        rcases g2 with g2 | g2
        · exact absurd ih.1 (hdis _ g2)
        · exact (ih.2 ha).trans (before_idx hnd g2)
    have := key v v hv
    exact lt_irrefl _ (this.2 this.1)
  · dsimp only at hp
    rcases he with ⟨h2, e, -⟩ | ⟨h1, e⟩
    · left
      rw [e] at hp
      have := List.mem_of_getElem? hp
      obtain ⟨q, hq, rfl⟩ := List.mem_map.1 this
      exact hps q hq
    · obtain ⟨u, hu⟩ := List.length_eq_one_iff.1 h1
      rw [e, hu] at hp
      simp only [List.map_cons, List.map_nil, List.cons_append, List.nil_append] at hp
      cases k with
      | zero =>
        simp only [List.getElem?_cons_zero, Option.some.injEq] at hp
        refine Or.inr ⟨?_, rfl, hp.symm⟩
        rw [hunk, List.filter_eq_nil_iff]
        intro v hv
        have hv' : v < n := List.mem_range.1 hv
        simp only [decide_eq_true_eq, not_not]
        rw [hbot, e, hu]
        by_cases hvu : v = u
        · simp [hvu]
        · have : v ∈ s.K.map Prod.fst := by
            by_contra hn
            have := (hI.mem v).2 ⟨hv', hn⟩
            rw [hu, List.mem_singleton] at this
            exact hvu this
          simp only [List.map_cons, List.map_nil, List.cons_append, List.nil_append, List.mem_cons]
          exact Or.inr this
      | succ k =>
        left
        rw [List.getElem?_cons_succ] at hp
        have := List.mem_of_getElem? hp
        obtain ⟨q, hq, rfl⟩ := List.mem_map.1 this
        exact hps q hq

/-! ### C90: the test of the placed variables -/

/-- Fisher's statistic of the residual of `v` on all the other variables of `U`, tested against each of them -/
def fisherStat (D : Data K Q) (U : List Nat) (v : Nat) : K :=
  ((U.filter (· ≠ v)).map (D.contrib v (U.filter (· ≠ v)))).foldl (· + ·) D.zeroK

/-- its p-value -/
def fisherP (D : Data K Q) (U : List Nat) (v : Nat) : Q := D.tail (U.length - 1) (fisherStat D U v)

theorem fisherLoop_spec (m : Nat) (ps : List Nat) (cap : Option K) (l : List Nat) (acc : K) :
    acc ≤ (l.map (D.contrib m ps)).foldl (· + ·) acc ∧
    (fisherLoop D m ps cap l acc = (l.map (D.contrib m ps)).foldl (· + ·) acc ∨
      ∃ c, cap = some c ∧ c < fisherLoop D m ps cap l acc ∧ c < (l.map (D.contrib m ps)).foldl (· + ·) acc) := by
  induction l generalizing acc with
  | nil => exact ⟨le_rfl, Or.inl rfl⟩
  | cons x l ih =>
    obtain ⟨h1, h2⟩ := ih (acc + D.contrib m ps x)
    refine ⟨(D.le_add acc m ps x).trans h1, ?_⟩
    rw [fisherLoop, List.map_cons, List.foldl_cons]
    split
    · rename_i hc
      cases cap with
      | none => simp at hc
      | some c =>
        simp only [Option.any_some, decide_eq_true_eq] at hc
        exact Or.inr ⟨c, rfl, hc, hc.trans_le h1⟩
    · exact h2

/-- the running best: the variable with the least statistic so far -/
def BestOf (D : Data K Q) (U l : List Nat) (s : Option (Nat × Q × K)) : Prop :=
  (l = [] ∧ s = none) ∨ ∃ v ∈ l, s = some (v, fisherP D U v, fisherStat D U v) ∧ ∀ w ∈ l, fisherStat D U v ≤ fisherStat D U w

theorem exo_best {U : List Nat} (hU : U.Nodup) (h3 : 3 ≤ U.length) (l done : List Nat) (hl : ∀ j ∈ l, j ∈ U) (s : Option (Nat × Q × K)) (hs : BestOf D U done s) :
    BestOf D U (done ++ l) (l.foldl (exoStep D U) s) := by
  induction l generalizing done s with
  | nil => simpa using hs
  | cons j l ih =>
    have hj : j ∈ U := hl j (by simp)
    have hlen : (U.filter (· ≠ j)).length = U.length - 1 := by have := filter_ne_length hU hj; omega
    have hft : ∀ cap, fisherTest D (U.filter (· ≠ j)) j cap =
        (D.tail (U.length - 1) (fisherLoop D j (U.filter (· ≠ j)) cap (U.filter (· ≠ j)) D.zeroK), fisherLoop D j (U.filter (· ≠ j)) cap (U.filter (· ≠ j)) D.zeroK) := by
      intro cap
      unfold fisherTest
      rw [if_neg (by omega), hlen]
    have hstep : BestOf D U (done ++ [j]) (exoStep D U s j) := by
      rcases hs with ⟨rfl, rfl⟩ | ⟨v, hv, rfl, hmin⟩
      · refine Or.inr ⟨j, by simp, ?_, by simp⟩
        unfold exoStep
        rw [if_pos (by simp), hft]
        obtain ⟨-, h | ⟨c, hc, -⟩⟩ := fisherLoop_spec (D := D) j (U.filter (· ≠ j)) none (U.filter (· ≠ j)) D.zeroK
        · simp only [Option.map_none, h]; rfl
        · cases hc
      · right
        have hsp := (fisherLoop_spec (D := D) j (U.filter (· ≠ j)) (some (fisherStat D U v)) (U.filter (· ≠ j)) D.zeroK).2
        unfold exoStep
        simp only [Option.map_some, hft, Option.all_some]
        set st := fisherLoop D j (U.filter (· ≠ j)) (some (fisherStat D U v)) (U.filter (· ≠ j)) D.zeroK with hst
        by_cases hlt : st < fisherStat D U v
        · rw [if_pos (by simp [hlt])]
          have hfull : st = fisherStat D U j := by
            rcases hsp with h | ⟨c, hc, h, -⟩
            · exact h
            · simp only [Option.some.injEq] at hc
              rw [← hc] at h
              exact absurd hlt (lt_asymm h)
          rw [hfull] at hlt ⊢
          refine ⟨j, by simp, rfl, fun w hw => ?_⟩
          rcases List.mem_append.1 hw with hw | hw
          · exact hlt.le.trans (hmin w hw)
          · rw [List.mem_singleton.1 hw]
        · have hp : ¬ fisherP D U v < D.tail (U.length - 1) st := not_lt.2 (D.tail_anti _ _ _ (not_lt.1 hlt))
          rw [if_neg (by simp [hlt, not_lt.1 hp])]
          refine ⟨v, by simp [hv], rfl, fun w hw => ?_⟩
          rcases List.mem_append.1 hw with hw | hw
          · exact hmin w hw
          · rw [List.mem_singleton.1 hw]
            rcases hsp with h | ⟨c, hc, -, h⟩
            · exact (not_lt.1 hlt).trans_eq h
            · simp only [Option.some.injEq] at hc
              rw [← hc] at h
              exact h.le
    have := ih (done ++ [j]) (fun x hx => hl x (by simp [hx])) _ hstep
    rw [List.append_assoc, List.singleton_append] at this
    exact this

/-- without prior knowledge and with three or more variables left, the early exit does not matter: the variable with the least statistic is picked -/
theorem pick_best {s : St Q} (hU : s.U.Nodup) (h3 : 3 ≤ s.U.length) : ∃ v ∈ s.U, pick D none s = some (v, fisherP D s.U v) ∧ ∀ w ∈ s.U, fisherStat D s.U v ≤ fisherStat D s.U w := by
  have hc : candidates none s.orders s.U = s.U := rfl
  unfold pick
  rw [hc, if_neg (by omega)]
  have := exo_best (D := D) hU h3 s.U [] (fun _ h => h) none (Or.inl ⟨rfl, rfl⟩)
  rw [List.nil_append] at this
  rcases this with ⟨h, -⟩ | ⟨v, hv, h, hmin⟩
  · rw [h] at h3; simp at h3
  · exact ⟨v, hv, by rw [findExo, h]; rfl, hmin⟩

/-- **C90** (what is true). Without prior knowledge: as long as three or more variables are left, the variable placed at the bottom is the one whose residual on *all the others left* has the
least Fisher statistic (hence the greatest p-value), its reported p-value is that of this complete test (the early exit of the loop has no effect) and it is not below the level; and if
three or more variables are left in the unknown block, then the test rejects every one of them. Missing: two variables left, and prior knowledge, see below. -/
theorem C90_best_partial {R : Type} [Zero R] (coef : Nat → List Nat → Nat → R) {n : Nat} (hn : 2 ≤ n) (o : Obj) (ho : o.aknw = none)
    {r : Fitted Q R} (h : fit D coef n o = some r) : ∃ (unk : List Nat) (bot : List (Nat × Q)),
      r.order = (if unk = [] then [] else [.unknown unk]) ++ (bot.map Prod.fst).map .var ∧ r.ps = bot.map Prod.snd ∧
      (∀ l1 v p l2, bot = l1 ++ (v, p) :: l2 → ∀ U, U = (List.range n).filter (· ∉ l2.map Prod.fst) → 3 ≤ U.length →
        D.thresh ≤ p ∧ p = fisherP D U v ∧ ∀ w ∈ U, fisherStat D U v ≤ fisherStat D U w ∧ fisherP D U w ≤ p) ∧
      (3 ≤ unk.length → ∀ v ∈ unk, fisherP D unk v < D.thresh) := by
  obtain ⟨s, q, hq, hI, hP, he⟩ := search_ends (D := D) (aknw := none) (n := n)
    (P := fun s => ∀ l1 v p l2, s.K = l1 ++ (v, p) :: l2 → ∀ U, U = (List.range n).filter (· ∉ l2.map Prod.fst) → 3 ≤ U.length →
        D.thresh ≤ p ∧ p = fisherP D U v ∧ ∀ w ∈ U, fisherStat D U v ≤ fisherStat D U w ∧ fisherP D U w ≤ p)
    (fun s m hs hI _ hp ht l1 v p l2 hK U hU h3 => by
      change m :: s.K = _ at hK
      cases l1 with
      | nil =>
        simp only [List.nil_append, List.cons.injEq] at hK
        obtain ⟨rfl, rfl⟩ := hK
        rw [← hI.rest] at hU
        subst hU
        obtain ⟨v', hv', hpk, hmin⟩ := pick_best (D := D) hI.nodupU h3
        rw [hpk] at hp
        simp only [Option.some.injEq, Prod.mk.injEq] at hp
        obtain ⟨rfl, rfl⟩ := hp
        exact ⟨ht, rfl, fun w hw => ⟨hmin w hw, D.tail_anti _ _ _ (hmin w hw)⟩⟩
      | cons a l1 =>
        simp only [List.cons_append, List.cons.injEq] at hK
        exact hs l1 v p l2 hK.2 U hU h3) n ⟨o.orders, List.range n, []⟩ (inv_init n o.orders) (by simpa using hn) (by simp) (by simp)
  obtain ⟨-, -, hlen⟩ := ended_final hI he
  unfold fit at h
  rw [if_neg (by omega), ho, hq] at h
  simp only [Option.map_some, Option.some.injEq] at h
  refine ⟨(List.range n).filter (· ∉ q.K.map Prod.fst), q.K, ?_, ?_, ?_, ?_⟩
  · rw [← h]; exact order_shape n _ hlen
  · rw [← h]
  · rcases he with ⟨-, rfl, -⟩ | ⟨h1, rfl⟩
    · exact hP
    · obtain ⟨u, hu⟩ := List.length_eq_one_iff.1 h1
      rw [hu]
      intro l1 v p l2 hK U hU h3
      simp only [List.map_cons, List.map_nil, List.cons_append, List.nil_append] at hK
      cases l1 with
      | nil =>
        simp only [List.nil_append, List.cons.injEq] at hK
        rw [← hK.2, ← hI.rest] at hU
        rw [hU] at h3; omega
      | cons a l1 =>
        simp only [List.cons_append, List.cons.injEq] at hK
        exact hP l1 v p l2 hK.2 U hU h3
  · intro h3 v hv
    rcases he with ⟨h2, rfl, hr⟩ | ⟨h1, rfl⟩
    · rw [← hI.rest] at h3 hv ⊢
      obtain ⟨v', hv', hpk, hmin⟩ := pick_best (D := D) hI.nodupU h3
      have := hr _ hpk
      exact (D.tail_anti _ _ _ (hmin v hv)).trans_lt this
    · obtain ⟨u, hu⟩ := List.length_eq_one_iff.1 h1
      exfalso
      rw [List.mem_filter, hu] at hv
      simp only [List.map_cons, List.map_nil, List.cons_append, List.nil_append, List.mem_cons, not_or, decide_eq_true_eq] at hv
      have := (hI.mem v).2 ⟨List.mem_range.1 hv.1, hv.2.2⟩
      rw [hu, List.mem_singleton] at this
      exact hv.2.1 this

/-- Tests on two variables: the residual of 0 has the greater p-value (5), that of 1 the smaller statistic. -/
def twoData : Data Nat Nat := ⟨fun m _ => if m = 0 then (5, 3) else (1, 2), fun _ _ _ => 0, fun _ _ => 0, 0, 0, 2, by simp, by simp⟩

/-- **C90 is false for two variables**: HSIC statistics of different residuals are compared as if they had the same null distribution, so the candidate with the smaller p-value is taken, it is
rejected, and the order is reported as unknown although the other variable passes the test. -/
theorem C90_two_violated : ∃ (D : Data Nat Nat) (coef : Nat → List Nat → Nat → Int) (o : Obj) (r : Fitted Nat Int), mkObj 2 none = some o ∧ fit D coef 2 o = some r ∧
    r.order = [.unknown [0, 1]] ∧ (fisherTest D [1] 0 none).1 > D.thresh ∧ (fisherTest D [0] 1 none).1 < D.thresh :=
  ⟨twoData, fun _ _ _ => 0, ⟨none, []⟩, _, rfl, rfl, by decide, by decide, by decide⟩

/-- Prior knowledge: 2 has a path to 0. -/
def pk20 : Prior := fun j i => if j = 0 ∧ i = 2 then some 1 else none

/-- Tests on three variables: the residual of every variable on the two others is dependent, pairs are independent. -/
def priorData : Data Nat Nat := ⟨fun _ _ => (5, 0), fun _ _ _ => 3, fun _ s => 3 - s, 0, 0, 2, by simp, fun _ _ _ h => Nat.sub_le_sub_left h 3⟩

/-- **C90 is false with prior knowledge**: the candidates (variables that no other must follow) are compared and tested among themselves only, without the other variables left, so a variable is
placed at the bottom although the test against all the variables left rejects each of them. -/
theorem C90_prior_violated : ∃ (D : Data Nat Nat) (coef : Nat → List Nat → Nat → Int) (o : Obj) (r : Fitted Nat Int), mkObj 3 (some pk20) = some o ∧ fit D coef 3 o = some r ∧
    r.order = [.var 2, .var 1, .var 0] ∧ r.ps = [0, 5, 5] ∧ ∀ v ∈ [0, 1, 2], fisherP D [0, 1, 2] v < D.thresh :=
  ⟨priorData, fun _ _ _ => 0, ⟨some pk20, [(2, 0)]⟩, _, rfl, rfl, by decide, by decide, by decide⟩

/-! ### C91: prior knowledge -/

/-- **C91** (what is true). The first fit of a new object obeys the (hard) prior knowledge: a variable that must precede `j` is earlier than `j`, or both are in the unknown block, or it is in the block and `j` is not;
and if the knowledge implies a precedence at all, then a ruled out path `i → j` has no non-zero number in the matrix (it may have NaN). Missing: later fits, ruled out
paths without precedence, NaN; see below. -/
theorem C91_first_fit_partial {R : Type} [Zero R] (coef : Nat → List Nat → Nat → R) {n : Nat} (hn : 2 ≤ n) (pk : Prior) {o : Obj} (ho : mkObj n (some pk) = some o)
    {r : Fitted Q R} (h : fit D coef n o = some r) : ∃ unk bot : List Nat, r.order = (if unk = [] then [] else [.unknown unk]) ++ bot.map .var ∧
      (∀ i j, MustPrecede n pk i j → i ∈ unk ∨ Before bot i j) ∧
      ((∃ i j, MustPrecede n pk i j) → ∀ i j x, pk j i = some 0 → r.B j i = some x → x = 0) := by
  unfold mkObj at ho
  simp only [Option.map_eq_some_iff] at ho
  obtain ⟨e, hx, ho⟩ := ho
  have hord : ∀ i j, MustPrecede n pk i j → (i, j) ∈ o.orders ∧ o.aknw = some pk := by
    intro i j hij
    cases e with
    | none => exact absurd hij (extract_nonempty hx i j)
    | some po =>
      simp only [Option.elim_some] at ho
      rw [← ho]
      exact ⟨(extract_spec hx i j).2 hij, rfl⟩
  obtain ⟨s, q, hq, hI, hP, he⟩ := search_ends (D := D) (aknw := o.aknw) (n := n)
    (P := fun s => ∀ i j, MustPrecede n pk i j → i ∈ s.U ∧ j ∈ s.U ∧ (i, j) ∈ s.orders ∨ i ∈ s.U ∧ j ∈ s.K.map Prod.fst ∨ Before (s.K.map Prod.fst) i j)
    (fun s m hs hI _ hp ht i j hij => by
      have hm := pick_mem hp
      have hmU : m.1 ∈ s.U := (candidates_sub _ _ _).subset hm
      rcases hs i j hij with ⟨h1, h2, h3⟩ | ⟨h1, h2⟩ | h1
      · have him : i ≠ m.1 := by
          intro e
          unfold candidates at hm
          rw [(hord i j hij).2] at hm
          simp only [Option.isSome_some, if_true, List.mem_filter, decide_eq_true_eq] at hm
          exact hm.2 (List.mem_map.2 ⟨(i, j), h3, e⟩)
        have hiU : i ∈ s.U.filter (· ≠ m.1) := List.mem_filter.2 ⟨h1, by simpa using him⟩
        by_cases hjm : j = m.1
        · exact Or.inr (Or.inl ⟨hiU, by rw [hjm]; exact List.mem_cons_self ..⟩)
        · refine Or.inl ⟨hiU, List.mem_filter.2 ⟨h2, by simpa using hjm⟩, ?_⟩
          show (i, j) ∈ if o.aknw.isSome then s.orders.filter fun o => o.2 ≠ m.1 else s.orders
          split
          · exact List.mem_filter.2 ⟨h3, by simpa using hjm⟩
          · exact h3
      · by_cases him : i = m.1
        · refine Or.inr (Or.inr ?_)
          show [i, j].Sublist (m.1 :: s.K.map Prod.fst)
          rw [him]
          exact List.Sublist.cons_cons _ (List.singleton_sublist.2 h2)
        · exact Or.inr (Or.inl ⟨List.mem_filter.2 ⟨h1, by simpa using him⟩, List.mem_cons_of_mem _ h2⟩)
      · exact Or.inr (Or.inr (List.Sublist.cons _ h1))) n ⟨o.orders, List.range n, []⟩ (inv_init n o.orders) (by simpa using hn) (by simp)
    (fun i j hij => Or.inl ⟨List.mem_range.2 (by unfold MustPrecede at hij; tauto), List.mem_range.2 (by unfold MustPrecede at hij; tauto), (hord i j hij).1⟩)
  obtain ⟨-, -, hlen⟩ := ended_final hI he
  unfold fit at h
  rw [if_neg (by omega), hq] at h
  simp only [Option.map_some, Option.some.injEq] at h
  have horder := order_shape n _ hlen
  refine ⟨(List.range n).filter (· ∉ q.K.map Prod.fst), q.K.map Prod.fst, by rw [← h]; exact horder, fun i j hij => ?_, fun ⟨i0, j0, h0⟩ i j x h1 h2 => ?_⟩
  · rcases he with ⟨-, rfl, -⟩ | ⟨h1, rfl⟩
    · rw [← hI.rest]
      rcases hP i j hij with ⟨h1, -⟩ | ⟨h1, -⟩ | h1
      · exact Or.inl h1
      · exact Or.inl h1
      · exact Or.inr h1
    · obtain ⟨u, hu⟩ := List.length_eq_one_iff.1 h1
      right
      rw [hu] at hP ⊢
      simp only [List.map_cons, List.map_nil, List.cons_append, List.nil_append]
      rcases hP i j hij with ⟨h1, h2, -⟩ | ⟨h1, h2⟩ | h1
      · rw [List.mem_singleton] at h1 h2
        have : i ≠ j := by
          rintro rfl
          unfold MustPrecede at hij
          have hsp : extractPartialOrders n pk ≠ none := by rw [hx]; simp
          rcases hij with ⟨_, _, h | h⟩
          · apply hsp
            unfold extractPartialOrders
            dsimp only
            rw [if_pos]
            simp only [List.any_eq_true, List.mem_filter, decide_eq_true_eq]
            exact ⟨(i, i), ⟨(mem_indexPairs n _).2 ⟨by assumption, by assumption⟩, h⟩, (mem_indexPairs n _).2 ⟨by assumption, by assumption⟩, h⟩
          · exact h.2 h.1
        exact absurd (h1.trans h2.symm) this
      · rw [List.mem_singleton] at h1
        rw [h1]
        exact List.Sublist.cons_cons _ (List.singleton_sublist.2 h2)
      · exact List.Sublist.cons _ h1
  · by_contra hx
    rw [← h] at h2
    dsimp only at h2
    rw [horder] at h2
    exact (adjacency_ne coef o.aknw h2 hx).2.2 pk (hord i0 j0 h0).2 h1

/-- Tests that never reject; the candidate listed first wins. -/
def easyData : Data Nat Nat := ⟨fun _ _ => (5, 0), fun _ _ _ => 0, fun _ _ => 5, 0, 0, 2, by simp, by simp⟩

/-- Tests that always reject. -/
def hardData : Data Nat Nat := ⟨fun _ _ => (0, 0), fun _ _ _ => 0, fun _ _ => 0, 0, 0, 2, by simp, by simp⟩

/-- Prior knowledge: 0 has a path to 1. -/
def pk01 : Prior := fun j i => if j = 1 ∧ i = 0 then some 1 else none

/-- **C91 is false for repeated fits** (as `bootstrap` does them): the first fit consumes the partial orders, the second one reverses a path that is known. -/
theorem C91_second_fit_violated : ∃ (D : Data Nat Nat) (coef : Nat → List Nat → Nat → Int) (o : Obj) (r : List (Fitted Nat Int)), mkObj 2 (some pk01) = some o ∧
    MustPrecede 2 pk01 0 1 ∧ fitMany 2 [(D, coef), (D, coef)] o = some r ∧ r.map Fitted.order = [[.var 0, .var 1], [.var 1, .var 0]] ∧ r.map (fun x => x.B 0 1) = [some 0, some 1] :=
  ⟨easyData, fun _ _ _ => 1, ⟨some pk01, [(0, 1)]⟩, _, rfl, by unfold MustPrecede; decide, rfl, by decide, by decide⟩

/-- Prior knowledge: 0 has a path to 1, and there is no path between 1 and 2. -/
def pk012 : Prior := fun j i => if j = 1 ∧ i = 0 then some 1 else if (j = 1 ∧ i = 2) ∨ (j = 2 ∧ i = 1) then some 0 else none

/-- **C91 is false for the unknown block**: the matrix has NaN ("unknown") where the prior knowledge rules out a path in either direction. -/
theorem C91_nan_violated : ∃ (D : Data Nat Nat) (coef : Nat → List Nat → Nat → Int) (o : Obj) (r : Fitted Nat Int), mkObj 3 (some pk012) = some o ∧ pk012 1 2 = some 0 ∧ pk012 2 1 = some 0 ∧
    fit D coef 3 o = some r ∧ r.B 1 2 = none ∧ r.B 2 1 = none :=
  ⟨hardData, fun _ _ _ => 1, ⟨some pk012, [(0, 1)]⟩, _, rfl, by decide, by decide, rfl, by decide, by decide⟩

/-- **C91 is false for ruled out paths that come in opposite pairs only**: the constructor discards the knowledge and a coefficient is estimated. -/
theorem C91_symmetric_violated : ∃ (D : Data Nat Nat) (coef : Nat → List Nat → Nat → Int) (o : Obj) (r : Fitted Nat Int), mkObj 2 (some pkNone) = some o ∧ pkNone 0 1 = some 0 ∧
    fit D coef 2 o = some r ∧ r.B 0 1 = some 1 :=
  ⟨easyData, fun _ _ _ => 1, ⟨none, []⟩, _, rfl, by decide, rfl, by decide⟩

/-! ### concrete cases -/

/-- Tests for 0 → 1 → 2: the residual of 2 on the others, and that of 1 on 0, are independent. -/
def chainData : Data Nat Nat := ⟨fun m _ => if m = 1 then (5, 0) else (0, 4), fun m _ _ => if m = 2 then 0 else 3, fun _ s => 3 - s, 0, 0, 2, by simp, fun _ _ _ h => Nat.sub_le_sub_left h 3⟩

/-- C89, C90: a complete run, three variables, no prior knowledge. -/
example : ∃ r, fit chainData (fun _ _ _ => (1 : Int)) 3 ⟨none, []⟩ = some r ∧ r.order = [.var 0, .var 1, .var 2] ∧ r.ps = [0, 5, 3] ∧ r.B 2 0 = some 1 ∧ r.B 0 2 = some 0 :=
  ⟨_, rfl, by decide, by decide, by decide, by decide⟩

/-- C91: a first fit with prior knowledge. -/
example : ∃ o r, mkObj 3 (some pk20) = some o ∧ fit priorData (fun _ _ _ => (1 : Int)) 3 o = some r ∧ MustPrecede 3 pk20 2 0 ∧ r.order = [.var 2, .var 1, .var 0] :=
  ⟨⟨some pk20, [(2, 0)]⟩, _, rfl, rfl, by unfold MustPrecede; decide, by decide⟩

end Parce
end CL
