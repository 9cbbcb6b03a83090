import Verif.Model.Permutation
import Mathlib.Data.List.Nodup
import Mathlib.Data.List.Perm.Subperm
import Mathlib.Data.Fintype.Card

/-!
# C61, C62: grow-shrink trees
-/
namespace CL
namespace Perm
variable {p : Nat} {K : Type} [AddCommGroup K] [LinearOrder K]

/-! ### grow and shrink -/

theorem mem_grow {sc : Finset (Fin p) → K} {avail parents : List (Fin p)} {g : K} {b : Fin p × K} :
    b ∈ grow sc avail parents g ↔ b.1 ∈ avail ∧ b.2 = sc (parents ++ [b.1]).toFinset ∧ g < b.2 := by
  unfold grow
  rw [List.mem_insertionSort]
  simp only [List.mem_filter, List.mem_map, decide_eq_true_eq]
  constructor
  · rintro ⟨⟨a, ha, rfl⟩, hg⟩
    exact ⟨ha, rfl, hg⟩
  · rintro ⟨h1, h2, h3⟩
    exact ⟨⟨b.1, h1, by rw [← h2]⟩, h3⟩

/-- a full round of `shrink` leaves the list as it was -/
theorem shrink_round (sc : Finset (Fin p) → K) (b a : List (Fin p)) (s : K) (best : Option (Fin p)) :
    (b.foldl (shrinkStep sc) (b ++ a, s, best)).1 = a ++ b := by
  induction b generalizing a s best with
  | nil => simp
  | cons x b ih =>
    have h : ∀ s best, (shrinkStep sc (x :: b ++ a, s, best) x).1 = b ++ (a ++ [x]) := by
      intro s best
      unfold shrinkStep
      dsimp only
      split <;> simp
    simp only [List.foldl_cons]
    have e : shrinkStep sc (x :: b ++ a, s, best) x =
        (b ++ (a ++ [x]), (shrinkStep sc (x :: b ++ a, s, best) x).2.1, (shrinkStep sc (x :: b ++ a, s, best) x).2.2) := by
      rw [← h s best]
    rw [e, ih]
    simp

/-- what a round computes -/
theorem shrink_round_spec (sc : Finset (Fin p) → K) (b a : List (Fin p)) (s : K) (best : Option (Fin p))
    (hnd : (b ++ a).Nodup) :
    let r := b.foldl (shrinkStep sc) (b ++ a, s, best)
    s ≤ r.2.1 ∧ (∀ x ∈ b, sc ((b ++ a).toFinset.erase x) ≤ r.2.1) ∧
      ((r.2 = (s, best)) ∨ ∃ x ∈ b, r.2.2 = some x ∧ r.2.1 = sc ((b ++ a).toFinset.erase x) ∧ s < r.2.1) := by
  induction b generalizing a s best with
  | nil => simp
  | cons x b ih =>
    intro r
    have hx : x ∉ b ++ a := (List.nodup_cons.1 hnd).1
    have hset : (b ++ a).toFinset = ((x :: b) ++ a).toFinset.erase x := by
      ext y
      simp only [List.mem_toFinset, Finset.mem_erase, List.cons_append, List.mem_cons]
      constructor
      · intro hy; exact ⟨fun h => hx (h ▸ hy), Or.inr hy⟩
      · rintro ⟨h1, h2 | h2⟩
        · exact absurd h2 h1
        · exact h2
    have hperm : (b ++ (a ++ [x])).toFinset = ((x :: b) ++ a).toFinset := by
      ext y; simp only [List.mem_toFinset, List.mem_append, List.mem_cons, List.mem_singleton]; simp; tauto
    have hnd' : (b ++ (a ++ [x])).Nodup := by
      have : (b ++ (a ++ [x])).Perm ((x :: b) ++ a) := by
        rw [← List.append_assoc]
        exact (List.perm_append_comm (l₁ := b ++ a) (l₂ := [x])).trans (by simp)
      exact this.nodup_iff.2 hnd
    by_cases hlt : s < sc ((x :: b ++ a).erase x).toFinset
    · have e : shrinkStep sc (x :: b ++ a, s, best) x =
          (b ++ (a ++ [x]), sc (((x :: b) ++ a).toFinset.erase x), some x) := by
        unfold shrinkStep
        dsimp only
        rw [if_pos hlt]
        simp only [List.cons_append, List.erase_cons_head, List.append_assoc]
        rw [← List.cons_append, hset]
      have hlt' : s < sc (((x :: b) ++ a).toFinset.erase x) := by
        simp only [List.cons_append, List.erase_cons_head] at hlt
        rw [hset] at hlt; exact hlt
      obtain ⟨h1, h2, h3⟩ := ih (a ++ [x]) (sc (((x :: b) ++ a).toFinset.erase x)) (some x) hnd'
      have hr : r = b.foldl (shrinkStep sc) (b ++ (a ++ [x]), sc (((x :: b) ++ a).toFinset.erase x), some x) := by
        show List.foldl _ _ _ = _
        rw [List.foldl_cons, e]
      rw [← hr] at h1 h2 h3
      rw [hperm] at h2 h3
      refine ⟨hlt'.le.trans h1, fun y hy => ?_, Or.inr ?_⟩
      · rcases List.mem_cons.1 hy with rfl | hy
        · exact h1
        · exact h2 y hy
      · rcases h3 with h3 | ⟨y, hy, h4, h5, h6⟩
        · exact ⟨x, by simp, by rw [h3], by rw [h3], by rw [h3]; exact hlt'⟩
        · exact ⟨y, by simp [hy], h4, h5, hlt'.trans h6⟩
    · have e : shrinkStep sc (x :: b ++ a, s, best) x = (b ++ (a ++ [x]), s, best) := by
        unfold shrinkStep
        dsimp only
        rw [if_neg hlt]
        simp
      have hlt' : sc (((x :: b) ++ a).toFinset.erase x) ≤ s := by
        simp only [List.cons_append, List.erase_cons_head] at hlt
        rw [hset] at hlt; exact not_lt.1 hlt
      obtain ⟨h1, h2, h3⟩ := ih (a ++ [x]) s best hnd'
      have hr : r = b.foldl (shrinkStep sc) (b ++ (a ++ [x]), s, best) := by
        show List.foldl _ _ _ = _
        rw [List.foldl_cons, e]
      rw [← hr] at h1 h2 h3
      rw [hperm] at h2 h3
      refine ⟨h1, fun y hy => ?_, ?_⟩
      · rcases List.mem_cons.1 hy with rfl | hy
        · exact hlt'.trans h1
        · exact h2 y hy
      · rcases h3 with h3 | ⟨y, hy, h4⟩
        · exact Or.inl h3
        · exact Or.inr ⟨y, by simp [hy], h4⟩

/-- `shrink` records the removed parents: erasing them again gives the same list -/
theorem shrinkLoop_replay (sc : Finset (Fin p) → K) (f : Nat) (parents : List (Fin p)) (s : K) (rm : List (Fin p)) :
    ∃ rm', (shrinkLoop sc f parents s rm).2.2 = rm ++ rm' ∧ (shrinkLoop sc f parents s rm).1 = rm'.foldl List.erase parents := by
  induction f generalizing parents s rm with
  | zero => exact ⟨[], by simp [shrinkLoop], rfl⟩
  | succ f ih =>
    have h1 := shrink_round sc parents [] s none
    simp only [List.append_nil, List.nil_append] at h1
    simp only [shrinkLoop]
    cases hb : (parents.foldl (shrinkStep sc) (parents, s, none)).2.2 with
    | none => exact ⟨[], by simp, by simp [h1]⟩
    | some best =>
      simp only [Option.elim_some]
      rw [h1]
      obtain ⟨rm', h2, h3⟩ := ih (parents.erase best) (parents.foldl (shrinkStep sc) (parents, s, none)).2.1 (rm ++ [best])
      exact ⟨best :: rm', by rw [h2]; simp, by rw [h3]; rfl⟩

/-- the result of `shrink`: a sublist, with its own score, which no single removal improves -/
theorem shrinkLoop_spec (sc : Finset (Fin p) → K) (f : Nat) (parents : List (Fin p)) (rm : List (Fin p))
    (hnd : parents.Nodup) (hf : parents.length < f) :
    let r := shrinkLoop sc f parents (sc parents.toFinset) rm
    r.1.Sublist parents ∧ r.2.1 = sc r.1.toFinset ∧ sc parents.toFinset ≤ r.2.1 ∧
      ∀ x ∈ r.1, sc (r.1.toFinset.erase x) ≤ r.2.1 := by
  induction f generalizing parents rm with
  | zero => omega
  | succ f ih =>
    have h1 := shrink_round sc parents [] (sc parents.toFinset) none
    obtain ⟨h2, h3, h4⟩ := shrink_round_spec sc parents [] (sc parents.toFinset) none (by simpa using hnd)
    simp only [List.append_nil, List.nil_append] at h1 h2 h3 h4
    simp only [shrinkLoop]
    rcases h4 with h4 | ⟨x, hx, h5, h6, h7⟩
    · rw [h4]
      simp only [Option.elim_none]
      rw [h1]
      rw [h4] at h3
      exact ⟨List.Sublist.refl _, rfl, le_refl _, fun x hx => h3 x hx⟩
    · rw [h5]
      simp only [Option.elim_some]
      rw [h1, h6]
      have hset : (parents.erase x).toFinset = parents.toFinset.erase x := by
        ext y
        simp only [List.mem_toFinset, Finset.mem_erase]
        exact hnd.mem_erase_iff
      rw [← hset]
      have hl : (parents.erase x).length = parents.length - 1 := List.length_erase_of_mem hx
      have hpos : 0 < parents.length := List.length_pos_of_mem hx
      obtain ⟨i1, i2, i3, i4⟩ := ih (parents.erase x) (rm ++ [x]) (hnd.erase x) (by omega)
      refine ⟨i1.trans List.erase_sublist, i2, ?_, i4⟩
      rw [h6, ← hset] at h7
      exact h7.le.trans i3

/-! ### traces -/

/-- candidates left and `grow_score` at the node reached by `rest` from the node `path` -/
def follow (sc : Finset (Fin p) → K) : List (Fin p) → List (Fin p) → List (Fin p) → K → Option (List (Fin p) × K)
  | [], _, avail, g => some (avail, g)
  | a :: rest, path, avail, g =>
    ((grow sc avail path g).find? fun b => decide (b.1 = a)).elim none fun b =>
      follow sc rest (path ++ [a])
        ((((grow sc avail path g).takeWhile fun b => decide (b.1 ≠ a)).map Prod.fst ++ [a]).foldl List.erase avail) b.2

theorem follow_append (sc : Finset (Fin p) → K) (r1 r2 path avail : List (Fin p)) (g : K) :
    follow sc (r1 ++ r2) path avail g = (follow sc r1 path avail g).elim none fun x => follow sc r2 (path ++ r1) x.1 x.2 := by
  induction r1 generalizing path avail g with
  | nil => simp [follow]
  | cons a r1 ih =>
    simp only [List.cons_append, follow]
    cases (grow sc avail path g).find? fun b => decide (b.1 = a) with
    | none => simp
    | some b => simp [ih]

/-- everything stored in the tree is what `grow` and `shrink` compute there -/
def Consistent (sc : Finset (Fin p) → K) (avail0 : List (Fin p)) (T : Tree p K) : Prop :=
  ∀ path, (∀ bs, T.branches path = some bs →
      ∃ x, follow sc path [] avail0 (sc ∅) = some x ∧ bs = grow sc x.1 path x.2) ∧
    (∀ rs, T.removed path = some rs →
      ∃ x, follow sc path [] avail0 (sc ∅) = some x ∧ rs = ((shrink sc path x.2).2.2, (shrink sc path x.2).2.1))

theorem consistent_new (sc : Finset (Fin p) → K) (avail0 : List (Fin p)) : Consistent sc avail0 Tree.new :=
  fun path => ⟨fun bs h => by simp [Tree.new] at h, fun rs h => by simp [Tree.new] at h⟩

theorem find_takeWhile {A : Type} (q r : A → Bool) (l : List A) {b : A} (hb : l.find? q = some b)
    (h1 : r b = true) (h2 : ∀ x, q x = false → r x = false) :
    l.find? r = some b ∧ (l.takeWhile fun x => !r x) = l.takeWhile fun x => !q x := by
  induction l with
  | nil => simp at hb
  | cons x l ih =>
    by_cases hq : q x = true
    · rw [List.find?_cons_of_pos hq] at hb
      simp only [Option.some.injEq] at hb
      subst hb
      simp [h1, hq, List.find?_cons_of_pos h1]
    · have hq' : q x = false := by simpa using hq
      rw [List.find?_cons_of_neg hq] at hb
      obtain ⟨i1, i2⟩ := ih hb
      have := h2 x hq'
      simp [this, hq', i1, List.find?_cons_of_neg, i2]

/-- A call on any consistent tree returns what a call on a new tree returns, and keeps the tree consistent. -/
theorem traceAt_pure (sc : Finset (Fin p) → K) (avail0 pre : List (Fin p)) (f : Nat) (T T' : Tree p K)
    (path avail : List (Fin p)) (g : K) (hT : Consistent sc avail0 T) (hT' : Consistent sc avail0 T')
    (hc : follow sc path [] avail0 (sc ∅) = some (avail, g)) :
    Consistent sc avail0 (traceAt sc pre f T path avail g).1 ∧
      (traceAt sc pre f T path avail g).2 = (traceAt sc pre f T' path avail g).2 := by
  induction f generalizing T T' path avail g with
  | zero => exact ⟨hT, rfl⟩
  | succ f ih =>
    have hbs : ∀ T, Consistent sc avail0 T → (T.branches path).getD (grow sc avail path g) = grow sc avail path g := by
      intro T hT
      cases hb : T.branches path with
      | none => rfl
      | some bs =>
        obtain ⟨x, h1, h2⟩ := (hT path).1 bs hb
        rw [hc] at h1
        simp only [Option.some.injEq] at h1
        rw [← h1] at h2
        simpa using h2
    have hT1 : ∀ T, Consistent sc avail0 T →
        Consistent sc avail0 ⟨set1 T.branches path (some (grow sc avail path g)), T.removed⟩ := by
      intro T hT q
      refine ⟨fun bs hb => ?_, fun rs hr => (hT q).2 rs hr⟩
      simp only [set1] at hb
      split at hb
      · rename_i hq
        subst hq
        simp only [Option.some.injEq] at hb
        exact ⟨_, hc, hb.symm⟩
      · exact (hT q).1 bs hb
    simp only [traceAt]
    rw [hbs T hT, hbs T' hT']
    cases hfind : (grow sc avail path g).find? fun b => decide (b.1 ∈ pre) with
    | none =>
      simp only [Option.elim_none]
      have hrep : (shrink sc path g).1 = (shrink sc path g).2.2.foldl List.erase path := by
        obtain ⟨rm', h1, h2⟩ := shrinkLoop_replay sc (path.length + 1) path g []
        unfold shrink
        rw [h2, h1]; simp
      have hrm : ∀ T, Consistent sc avail0 T → ∀ rs, T.removed path = some rs →
          rs = ((shrink sc path g).2.2, (shrink sc path g).2.1) := by
        intro T hT rs hr
        obtain ⟨x, h1, h2⟩ := (hT path).2 rs hr
        rw [hc] at h1
        simp only [Option.some.injEq] at h1
        rw [← h1] at h2
        exact h2
      constructor
      · cases hr : T.removed path with
        | some rs => exact hT1 T hT
        | none =>
          simp only [Option.elim_none]
          intro q
          refine ⟨((hT1 T hT) q).1, fun rs hrs => ?_⟩
          simp only [set1] at hrs
          split at hrs
          · rename_i hq
            subst hq
            simp only [Option.some.injEq] at hrs
            exact ⟨_, hc, hrs.symm⟩
          · exact (hT q).2 rs hrs
      · cases hr : T.removed path with
        | none =>
          cases hr' : T'.removed path with
          | none => rfl
          | some rs' =>
            rw [hrm T' hT' rs' hr']
            simp only [Option.elim_none, Option.elim_some, ← hrep]
        | some rs =>
          rw [hrm T hT rs hr]
          cases hr' : T'.removed path with
          | none => simp only [Option.elim_none, Option.elim_some, ← hrep]
          | some rs' => rw [hrm T' hT' rs' hr']; rfl
    | some b =>
      simp only [Option.elim_some]
      have hbp : b.1 ∈ pre := by simpa using List.find?_some hfind
      apply ih _ _ _ _ _ (hT1 T hT) (hT1 T' hT')
      obtain ⟨e1, e2⟩ := find_takeWhile (fun c : Fin p × K => decide (c.1 ∈ pre)) (fun c => decide (c.1 = b.1)) _ hfind
        (by simp) (by
          intro x hx
          simp only [decide_eq_false_iff_not] at hx ⊢
          rintro h; exact hx (h ▸ hbp))
      rw [follow_append, hc]
      simp only [Option.elim_some, follow, e1]
      simp only [decide_not, List.nil_append] at e2 ⊢
      rw [e2, e1]
      rfl

/-- **C61.** However often and with whatever prefixes the tree was traced before, a trace returns the same score and the same
parents as on a new tree: the lazily filled nodes never change an answer. -/
theorem C61_trace_history (sc : Finset (Fin p) → K) (v : Fin p) (history : List (List (Fin p))) (pre : List (Fin p)) :
    (trace sc v (history.foldl (fun T q => (trace sc v T q).1) Tree.new) pre).2 = (trace sc v Tree.new pre).2 := by
  have hc : ∀ (l : List (List (Fin p))) T, Consistent sc ((List.finRange p).filter (· ≠ v)) T →
      Consistent sc ((List.finRange p).filter (· ≠ v)) (l.foldl (fun T q => (trace sc v T q).1) T) := by
    intro l
    induction l with
    | nil => intro T h; exact h
    | cons q l ih =>
      intro T h
      exact ih _ (traceAt_pure sc _ q _ T T [] _ _ h h rfl).1
  exact (traceAt_pure sc _ pre _ _ _ [] _ _ (hc history _ (consistent_new sc _)) (consistent_new sc _) rfl).2

/-- only membership in the prefix matters -/
theorem traceAt_congr (sc : Finset (Fin p) → K) {pre pre' : List (Fin p)} (h : ∀ a, a ∈ pre ↔ a ∈ pre') (f : Nat)
    (T : Tree p K) (path avail : List (Fin p)) (g : K) :
    traceAt sc pre f T path avail g = traceAt sc pre' f T path avail g := by
  have h' : (fun b : Fin p × K => decide (b.1 ∈ pre)) = fun b => decide (b.1 ∈ pre') := by funext b; simp [h]
  have h'' : (fun b : Fin p × K => decide (b.1 ∉ pre)) = fun b => decide (b.1 ∉ pre') := by funext b; simp [h]
  induction f generalizing T path avail g with
  | zero => rfl
  | succ f ih =>
    simp only [traceAt]
    rw [h', h'']
    congr 1
    funext b
    exact ih _ _ _ _

theorem trScore_congr (sc : Fin p → Finset (Fin p) → K) (v : Fin p) {pre pre' : List (Fin p)}
    (h : ∀ a, a ∈ pre ↔ a ∈ pre') : trScore sc v pre = trScore sc v pre' := by
  unfold trScore trace
  rw [traceAt_congr (sc v) h]

theorem trParents_congr (sc : Fin p → Finset (Fin p) → K) (v : Fin p) {pre pre' : List (Fin p)}
    (h : ∀ a, a ∈ pre ↔ a ∈ pre') : trParents sc v pre = trParents sc v pre' := by
  unfold trParents trace
  rw [traceAt_congr (sc v) h]

theorem mem_foldl_erase {l r : List (Fin p)} (hl : l.Nodup) {x : Fin p} : x ∈ r.foldl List.erase l ↔ x ∈ l ∧ x ∉ r := by
  induction r generalizing l with
  | nil => simp
  | cons a r ih =>
    rw [List.foldl_cons, ih (hl.erase a), hl.mem_erase_iff]
    simp; tauto

theorem nodup_foldl_erase {l r : List (Fin p)} (hl : l.Nodup) : (r.foldl List.erase l).Nodup := by
  induction r generalizing l with
  | nil => exact hl
  | cons a r ih => exact ih (hl.erase a)

theorem traceAt_spec (sc : Finset (Fin p) → K) (pre : List (Fin p)) (f : Nat) (path avail : List (Fin p)) (T : Tree p K)
    (hT : ∀ q, path <+: q → T.branches q = none ∧ T.removed q = none)
    (hpa : (path ++ avail).Nodup) (hpre : ∀ a ∈ path, a ∈ pre) (hf : avail.length < f) :
    let r := (traceAt sc pre f T path avail (sc path.toFinset)).2
    r.1 = sc r.2.toFinset ∧ sc path.toFinset ≤ r.1 ∧ r.2.Nodup ∧ (∀ a ∈ r.2, a ∈ pre ∧ a ∈ path ++ avail) ∧
      ∀ x ∈ r.2, sc (r.2.toFinset.erase x) ≤ r.1 := by
  induction f generalizing path avail T with
  | zero => omega
  | succ f ih =>
    have hnd := List.nodup_append.1 hpa
    simp only [traceAt]
    rw [(hT path (List.prefix_refl _)).1, (hT path (List.prefix_refl _)).2]
    simp only [Option.getD_none, Option.elim_none]
    cases hfind : (grow sc avail path (sc path.toFinset)).find? fun b => decide (b.1 ∈ pre) with
    | none =>
      simp only [Option.elim_none]
      obtain ⟨h1, h2, h3, h4⟩ := shrinkLoop_spec sc (path.length + 1) path [] hnd.1 (by omega)
      refine ⟨h2, h3, hnd.1.sublist h1, fun a ha => ?_, h4⟩
      exact ⟨hpre a (h1.subset ha), List.mem_append_left _ (h1.subset ha)⟩
    | some b =>
      simp only [Option.elim_some]
      obtain ⟨g1, g2, g3⟩ := mem_grow.1 (List.mem_of_find?_eq_some hfind)
      have hbp : b.1 ∈ pre := by simpa using List.find?_some hfind
      generalize hav : (((grow sc avail path (sc path.toFinset)).takeWhile fun b => decide (b.1 ∉ pre)).map Prod.fst ++
        [b.1]).foldl List.erase avail = avail'
      have hmem : ∀ x, x ∈ avail' → x ∈ avail ∧ x ≠ b.1 := by
        intro x hx
        rw [← hav, mem_foldl_erase hnd.2.1] at hx
        exact ⟨hx.1, fun h => hx.2 (by simp [h])⟩
      have hnd' : avail'.Nodup := by rw [← hav]; exact nodup_foldl_erase hnd.2.1
      have hlen : avail'.length < avail.length := by
        have hs : avail' ⊆ avail.erase b.1 := fun x hx => by
          rw [hnd.2.1.mem_erase_iff]; exact ⟨(hmem x hx).2, (hmem x hx).1⟩
        have := (List.subperm_of_subset hnd' hs).length_le
        rw [List.length_erase_of_mem g1] at this
        have := List.length_pos_of_mem g1
        omega
      rw [g2]
      have := ih (path ++ [b.1]) avail' ⟨set1 T.branches path (some (grow sc avail path (sc path.toFinset))), T.removed⟩
        (by
          intro q hq
          have hpq : path <+: q := (List.prefix_append path [b.1]).trans hq
          refine ⟨?_, (hT q hpq).2⟩
          show (if q = path then _ else _) = _
          rw [if_neg]
          · exact (hT q hpq).1
          · rintro rfl
            have := hq.length_le
            simp at this
            omega)
        (by
          rw [List.append_assoc]
          refine List.nodup_append.2 ⟨hnd.1, ?_, fun a ha c hc => ?_⟩
          · rw [List.singleton_append, List.nodup_cons]
            exact ⟨fun h => (hmem _ h).2 rfl, hnd'⟩
          · rcases List.mem_append.1 hc with hc | hc
            · rw [List.mem_singleton.1 hc]; exact hnd.2.2 a ha _ g1
            · exact hnd.2.2 a ha c (hmem c hc).1)
        (by
          intro a ha
          rcases List.mem_append.1 ha with ha | ha
          · exact hpre a ha
          · rw [List.mem_singleton.1 ha]; exact hbp)
        (by omega)
      obtain ⟨i1, i2, i3, i4, i5⟩ := this
      refine ⟨i1, ?_, i3, fun a ha => ⟨(i4 a ha).1, ?_⟩, i5⟩
      · rw [g2] at g3; exact g3.le.trans i2
      · rcases List.mem_append.1 (i4 a ha).2 with h | h
        · rcases List.mem_append.1 h with h | h
          · exact List.mem_append_left _ h
          · rw [List.mem_singleton.1 h]; exact List.mem_append_right _ g1
        · exact List.mem_append_right _ (hmem a h).1

/-- **C61** (what a trace returns). The parents are distinct, different from the variable and taken from the prefix; the score
is the score of exactly these parents, at least the score of the empty set; and removing any one parent does not improve
it. -/
theorem C61_trace_result (sc : Fin p → Finset (Fin p) → K) (v : Fin p) (pre : List (Fin p)) :
    (trParents sc v pre).Nodup ∧ (∀ a ∈ trParents sc v pre, a ∈ pre ∧ a ≠ v) ∧
    trScore sc v pre = sc v (trParents sc v pre).toFinset ∧ sc v ∅ ≤ trScore sc v pre ∧
    ∀ x ∈ trParents sc v pre, sc v ((trParents sc v pre).toFinset.erase x) ≤ trScore sc v pre := by
  have h := traceAt_spec (sc v) pre (p + 1) [] ((List.finRange p).filter (· ≠ v)) Tree.new
    (fun q _ => ⟨rfl, rfl⟩) (by simpa using (List.nodup_finRange p).filter _) (by simp)
    (by
      have := List.length_filter_le (fun x => decide (x ≠ v)) (List.finRange p)
      simp only [List.length_finRange] at this
      omega)
  obtain ⟨h1, h2, h3, h4, h5⟩ := h
  exact ⟨h3, fun a ha => ⟨(h4 a ha).1, by simpa using (h4 a ha).2⟩, h1, h2, h5⟩

/-! ### C62: the order in which parents are added -/

/-- Three variables; variable 0 gains 5 from parent 1, 1 from parent 2 and 5 from both. -/
def greedyScore : Fin 3 → Finset (Fin 3) → Int := fun _ S => if 1 ∈ S then (if 2 ∈ S then 6 else 5) else if 2 ∈ S then 1 else 0

/-- **C62 is false**: the branches are sorted in ascending order, so the candidate that improves the score *least* is added
first. Here 1 (gain 5) and 2 (gain 1) are both available and the node chosen below the root is 2. -/
theorem C62_least_first_violated :
    ∃ (sc : Finset (Fin 3) → Int) (avail : List (Fin 3)) (b : Fin 3 × Int), (∀ a ∈ avail, a ≠ 0) ∧
      (grow sc avail [] (sc ∅)).head? = some b ∧ ∃ c ∈ avail, b.2 < sc {c} :=
  ⟨greedyScore 0, [1, 2], (2, 1), by decide, by decide, 1, by decide, by decide⟩

/-- **C62** (what is true). The branch taken is an improving candidate from the prefix that improves least. -/
theorem C62_least_first_partial (sc : Finset (Fin p) → K) (avail parents pre : List (Fin p)) (g : K) {b : Fin p × K}
    (hb : (grow sc avail parents g).find? (fun b => decide (b.1 ∈ pre)) = some b) :
    b.1 ∈ avail ∧ b.1 ∈ pre ∧ g < sc (parents ++ [b.1]).toFinset ∧
    ∀ c ∈ avail, c ∈ pre → g < sc (parents ++ [c]).toFinset →
      sc (parents ++ [b.1]).toFinset ≤ sc (parents ++ [c]).toFinset := by
  obtain ⟨g1, g2, g3⟩ := mem_grow.1 (List.mem_of_find?_eq_some hb)
  have hbp : b.1 ∈ pre := by simpa using List.find?_some hb
  rw [g2] at g3
  refine ⟨g1, hbp, g3, fun c hc hcp hlt => ?_⟩
  have hmem : (c, sc (parents ++ [c]).toFinset) ∈ grow sc avail parents g := mem_grow.2 ⟨hc, rfl, hlt⟩
  have hsort : (grow sc avail parents g).Pairwise fun a b => a.2 ≤ b.2 := by
    have : Std.Total (fun a b : Fin p × K => a.2 ≤ b.2) := ⟨fun a b => le_total _ _⟩
    have : IsTrans (Fin p × K) (fun a b => a.2 ≤ b.2) := ⟨fun a b c => le_trans⟩
    exact List.pairwise_insertionSort _ _
  rw [← g2]
  clear g1 g2 g3
  generalize sc (parents ++ [c]).toFinset = sv at hmem ⊢
  generalize grow sc avail parents g = L at hmem hsort hb
  induction L with
  | nil => simp at hmem
  | cons x l ih =>
    obtain ⟨s1, s2⟩ := List.pairwise_cons.1 hsort
    by_cases hx : x.1 ∈ pre
    · rw [List.find?_cons_of_pos (by simpa using hx)] at hb
      simp only [Option.some.injEq] at hb
      subst hb
      rcases List.mem_cons.1 hmem with rfl | h
      · exact le_refl _
      · exact s1 _ h
    · rw [List.find?_cons_of_neg (by simpa using hx)] at hb
      rcases List.mem_cons.1 hmem with rfl | h
      · exact absurd hcp hx
      · exact ih h s2 hb

/-- `C61` on a concrete score: variable 0 with prefix 1, 2 keeps both parents; the history contains other prefixes. -/
example : (trace (greedyScore 0) 0 ([[1], [2, 1], []].foldl (fun T q => (trace (greedyScore 0) 0 T q).1) Tree.new) [1, 2]).2 =
    (6, [2, 1]) := by decide
example : trParents greedyScore 0 [1] = [1] ∧ trScore greedyScore 0 [1] = 5 := by decide

end Perm
end CL
