import Verif.Props.ExactSearch

/-!
# C34: the pattern database of the k-cycle heuristic
-/
namespace CL
namespace Exact
open Spec
variable {d : Nat} {K : Type} [AddCommGroup K] [LinearOrder K] [IsOrderedAddMonoid K]

/-- `v` is the least cost of placing the variables outside `U` after those of `U`. -/
def LeastCost (pgs : Fin d → PG d K) (U : Finset (Fin d)) (v : WithTop K) : Prop :=
  (∀ l, Completion U l → v ≤ cost pgs U l) ∧ ∃ l, Completion U l ∧ v = cost pgs U l

omit [AddCommGroup K] [IsOrderedAddMonoid K] in
theorem PDict.mem_set {D : PDict d K} {k : Finset (Fin d)} {v : WithTop K} {e : Finset (Fin d) × WithTop K} (h : e ∈ D.set k v) :
    e = (k, v) ∨ e ∈ D := by
  unfold PDict.set at h
  split at h
  · obtain ⟨a, ha, rfl⟩ := List.mem_map.1 h
    split
    · exact Or.inl rfl
    · exact Or.inr ha
  · rcases List.mem_append.1 h with h | h
    · exact Or.inr h
    · exact Or.inl (by simpa using h)

omit [AddCommGroup K] [IsOrderedAddMonoid K] in
theorem PDict.get_set (D : PDict d K) (k k' : Finset (Fin d)) (v : WithTop K) :
    (D.set k v).get k' = if k' = k then some v else D.get k' := by
  unfold PDict.set PDict.get
  split
  · rename_i hk
    induction D with
    | nil => simp at hk
    | cons a D ih =>
      simp only [List.map_cons, List.find?_cons]
      by_cases ha : a.1 = k
      · simp only [ha, if_true]
        by_cases hk' : k' = k
        · simp [hk']
        · have : ¬ k = k' := fun h => hk' h.symm
          simp only [this, decide_false, hk', if_false]
          clear ih hk
          induction D with
          | nil => rfl
          | cons b D ih2 =>
            simp only [List.map_cons, List.find?_cons]
            by_cases hb : b.1 = k
            · simp only [hb, if_true, this, decide_false]; exact ih2
            · simp only [hb, if_false]
              by_cases hb' : b.1 = k'
              · simp [hb']
              · simp only [hb', decide_false]; exact ih2
      · simp only [ha, if_false]
        have hk2 : (D.any fun e => decide (e.1 = k)) = true := by simpa [ha] using hk
        by_cases hak : a.1 = k'
        · have : ¬ k' = k := fun h => ha (hak.trans h)
          simp [hak, this]
        · simp only [hak, decide_false]
          exact ih hk2
  · rename_i hk
    simp only [List.any_eq_true, not_exists, not_and, decide_eq_true_eq] at hk
    rw [List.find?_append]
    by_cases hk' : k' = k
    · subst hk'
      have : D.find? (fun e => decide (e.1 = k')) = none := List.find?_eq_none.2 (by simpa using hk)
      simp [this]
    · have : ¬ k = k' := fun h => hk' h.symm
      simp [this, hk']

omit [AddCommGroup K] [IsOrderedAddMonoid K] in
theorem PDict.get_mem {D : PDict d K} {k : Finset (Fin d)} {v : WithTop K} (h : D.get k = some v) : (k, v) ∈ D := by
  unfold PDict.get at h
  simp only [Option.map_eq_some_iff] at h
  obtain ⟨e, h1, rfl⟩ := h
  have := List.find?_some h1
  simp only [decide_eq_true_eq] at this
  rw [← this]
  exact List.mem_of_find?_eq_some h1

/-- looking up the key of an entry finds that entry -/
def PDict.Functional (D : PDict d K) : Prop := ∀ e ∈ D, D.get e.1 = some e.2

omit [AddCommGroup K] [IsOrderedAddMonoid K] in
theorem PDict.Functional.set {D : PDict d K} (h : D.Functional) (k : Finset (Fin d)) (v : WithTop K) : (D.set k v).Functional := by
  intro e he
  rw [get_set]
  split
  · rename_i hk
    unfold PDict.set at he
    split at he
    · obtain ⟨a, ha, rfl⟩ := List.mem_map.1 he
      split
      · rfl
      · rename_i hak; simp only [if_neg hak] at hk; exact absurd hk hak
    · rename_i hn
      simp only [List.any_eq_true, not_exists, not_and, decide_eq_true_eq] at hn
      rcases List.mem_append.1 he with he | he
      · exact absurd hk (hn e he)
      · simp at he; simp [he]
  · rename_i hk
    rcases mem_set he with rfl | he
    · exact absurd rfl hk
    · exact h e he

/-- The dictionary under construction: entries are costs of completions, `Seen o g` costs were offered. -/
structure CurrInv (pgs : Fin d → PG d K) (j : Nat) (Seen : Finset (Fin d) → WithTop K → Prop) (D : PDict d K) : Prop where
  fn : D.Functional
  real : ∀ e ∈ D, (e.1ᶜ).card = j ∧ ∃ l, Completion e.1 l ∧ e.2 = cost pgs e.1 l
  seen : ∀ o g, Seen o g → ∃ v, D.get o = some v ∧ v ≤ g

omit [IsOrderedAddMonoid K] in
theorem CurrInv.offer {pgs : Fin d → PG d K} {j : Nat} {Seen : Finset (Fin d) → WithTop K → Prop} {D : PDict d K} (h : CurrInv pgs j Seen D)
    {o : Finset (Fin d)} {g : WithTop K} (hc : (oᶜ).card = j) (hg : ∃ l, Completion o l ∧ g = cost pgs o l) :
    CurrInv pgs j (fun o' g' => Seen o' g' ∨ (o' = o ∧ g' = g))
      ((D.get o).elim (D.set o g) fun old => if g < old then D.set o g else D) := by
  have hset : (∀ v, D.get o = some v → g ≤ v) → CurrInv pgs j (fun o' g' => Seen o' g' ∨ (o' = o ∧ g' = g)) (D.set o g) := by
    intro hle
    refine ⟨h.fn.set o g, fun e he => ?_, fun o' g' hs => ?_⟩
    · rcases PDict.mem_set he with rfl | he
      · exact ⟨hc, hg⟩
      · exact h.real e he
    · rw [PDict.get_set]
      by_cases ho : o' = o
      · subst ho
        refine ⟨g, by simp, ?_⟩
        rcases hs with hs | ⟨-, rfl⟩
        · obtain ⟨v, hv, hvg⟩ := h.seen _ _ hs
          exact (hle v hv).trans hvg
        · exact le_refl _
      · rcases hs with hs | ⟨hs, -⟩
        · rw [if_neg ho]; exact h.seen _ _ hs
        · exact absurd hs ho
  cases hD : D.get o with
  | none => exact hset (by simp [hD])
  | some old =>
    simp only [Option.elim_some]
    split
    · rename_i hlt
      exact hset (fun v hv => by rw [hD] at hv; cases hv; exact le_of_lt hlt)
    · rename_i hlt
      refine ⟨h.fn, h.real, fun o' g' hs => ?_⟩
      rcases hs with hs | ⟨rfl, rfl⟩
      · exact h.seen _ _ hs
      · exact ⟨old, hD, le_of_not_gt hlt⟩

omit [IsOrderedAddMonoid K] in
theorem expand_inv {pgs : Fin d → PG d K} {j : Nat} {U : Finset (Fin d)} {g : WithTop K} (hU : (Uᶜ).card = j)
    (hg : ∃ l, Completion U l ∧ g = cost pgs U l) {Seen : Finset (Fin d) → WithTop K → Prop} {D : PDict d K} (h : CurrInv pgs (j + 1) Seen D) :
    CurrInv pgs (j + 1) (fun o g' => Seen o g' ∨ ∃ i ∈ U, o = U.erase i ∧ g' = g + (query (pgs i) (U.erase i)).2) (expand pgs g U D) := by
  unfold expand
  have key : ∀ (is : List (Fin d)) (Seen : Finset (Fin d) → WithTop K → Prop) (D : PDict d K), (∀ i ∈ is, i ∈ U) → CurrInv pgs (j + 1) Seen D →
      CurrInv pgs (j + 1) (fun o g' => Seen o g' ∨ ∃ i ∈ is, o = U.erase i ∧ g' = g + (query (pgs i) (U.erase i)).2)
        (is.foldl (fun curr i => (curr.get (U.erase i)).elim (curr.set (U.erase i) (g + (query (pgs i) (U.erase i)).2))
          fun old => if g + (query (pgs i) (U.erase i)).2 < old then curr.set (U.erase i) (g + (query (pgs i) (U.erase i)).2) else curr) D) := by
    intro is
    induction is with
    | nil => intro Seen D _ h; exact ⟨h.fn, h.real, fun o g hs => h.seen o g (by simpa using hs)⟩
    | cons i is ih =>
      intro Seen D his h
      have hi := his i (List.mem_cons_self ..)
      have hcard : ((U.erase i)ᶜ).card = j + 1 := by
        rw [Finset.card_compl, Finset.card_erase_of_mem hi]
        rw [Finset.card_compl] at hU
        have : 0 < U.card := Finset.card_pos.2 ⟨i, hi⟩
        have hcu : U.card ≤ d := by simpa using Finset.card_le_univ U
        rw [Fintype.card_fin] at hU ⊢
        omega
      have hreal : ∃ l, Completion (U.erase i) l ∧ g + (query (pgs i) (U.erase i)).2 = cost pgs (U.erase i) l := by
        obtain ⟨l, hl, rfl⟩ := hg
        refine ⟨i :: l, ⟨List.nodup_cons.2 ⟨fun hm => (hl.2 i).1 hm hi, hl.1⟩, fun v => ?_⟩, ?_⟩
        · have := hl.2 v
          simp only [List.mem_cons, Finset.mem_erase]
          grind
        · simp only [cost, Finset.insert_erase hi]
          rw [add_comm]
      have := ih _ _ (fun i' hi' => his i' (List.mem_cons_of_mem _ hi')) (h.offer hcard hreal)
      refine ⟨this.fn, this.real, fun o g' hs => this.seen o g' ?_⟩
      rcases hs with hs | ⟨i', hi', hs⟩
      · exact Or.inl (Or.inl hs)
      · rcases List.mem_cons.1 hi' with rfl | hi'
        · exact Or.inl (Or.inr hs)
        · exact Or.inr ⟨i', hi', hs⟩
  have := key ((List.finRange d).filter (· ∈ U)) Seen D (fun i hi => by simpa using hi) h
  refine ⟨this.fn, this.real, fun o g' hs => this.seen o g' ?_⟩
  rcases hs with hs | ⟨i, hi, hs⟩
  · exact Or.inl hs
  · exact Or.inr ⟨i, by simpa using hi, hs⟩

/-- A complete level: exactly the sets with `j` variables to place, with their least costs. -/
structure Level (pgs : Fin d → PG d K) (j : Nat) (D : PDict d K) : Prop where
  least : ∀ e ∈ D, (e.1ᶜ).card = j ∧ LeastCost pgs e.1 e.2
  all : ∀ U, (Uᶜ).card = j → ∃ v, (U, v) ∈ D

/-- what is stored -/
def FinalOk (pgs : Fin d → PG d K) (k : Nat) (D : PDict d K) : Prop := ∀ e ∈ D, e.1.card < k ∧ LeastCost pgs (e.1ᶜ) e.2

theorem level_step {pgs : Fin d → PG d K} {j : Nat} {D : PDict d K} (h : Level pgs j D) {st : PDState d K} (hf : FinalOk pgs j st.final) :
    Level pgs (j + 1) (D.foldl (pdStep pgs) (st, [])).2 ∧ FinalOk pgs (j + 1) (D.foldl (pdStep pgs) (st, [])).1.final := by
  have key : ∀ (es : PDict d K) (st : PDState d K) (C : PDict d K) (Seen : Finset (Fin d) → WithTop K → Prop),
      (∀ e ∈ es, (e.1ᶜ).card = j ∧ LeastCost pgs e.1 e.2) → FinalOk pgs (j + 1) st.final → CurrInv pgs (j + 1) Seen C →
      FinalOk pgs (j + 1) (es.foldl (pdStep pgs) (st, C)).1.final ∧
      CurrInv pgs (j + 1) (fun o g' => Seen o g' ∨ ∃ e ∈ es, ∃ i ∈ e.1, o = e.1.erase i ∧ g' = e.2 + (query (pgs i) (e.1.erase i)).2)
        (es.foldl (pdStep pgs) (st, C)).2 := by
    intro es
    induction es with
    | nil => intro st C Seen _ h1 h2; exact ⟨h1, h2.fn, h2.real, fun o g hs => h2.seen o g (by simpa using hs)⟩
    | cons e es ih =>
      intro st C Seen hes h1 h2
      obtain ⟨e1, e2⟩ := hes e (List.mem_cons_self ..)
      simp only [List.foldl_cons]
      obtain ⟨r1, r2⟩ := ih (pdStep pgs (st, C) e).1 (pdStep pgs (st, C) e).2 _ (fun e' he' => hes e' (List.mem_cons_of_mem _ he'))
        (by
          intro e' he'
          simp only [pdStep] at he'
          rcases PDict.mem_set he' with rfl | he'
          · simp only [compl_compl]
            exact ⟨by omega, e2⟩
          · exact h1 e' he')
        (expand_inv e1 e2.2 h2)
      refine ⟨r1, r2.fn, r2.real, fun o g' hs => r2.seen o g' ?_⟩
      rcases hs with hs | ⟨e', he', hs⟩
      · exact Or.inl (Or.inl hs)
      · rcases List.mem_cons.1 he' with rfl | he'
        · exact Or.inl (Or.inr hs)
        · exact Or.inr ⟨e', he', hs⟩
  obtain ⟨k1, k2⟩ := key D st [] (fun _ _ => False) h.least (fun e he => ⟨by have := (hf e he).1; omega, (hf e he).2⟩)
    ⟨by intro e he; simp at he, by simp, by simp⟩
  refine ⟨⟨fun e he => ?_, fun U hU => ?_⟩, k1⟩
  · obtain ⟨c1, c2⟩ := k2.real e he
    refine ⟨c1, fun l hl => ?_, c2⟩
    -- the first variable of `l` was placed from a set of the level before
    have hne : e.1 ≠ Finset.univ := by
      intro hu
      rw [hu] at c1
      simp at c1
    match l, hl with
    | [], hl => exact absurd rfl (completion_ne_nil hl hne)
    | v :: l, hl =>
      obtain ⟨hv, hl'⟩ := hl.cons
      have hc : ((insert v e.1)ᶜ).card = j := by
        rw [Finset.card_compl] at c1 ⊢
        rw [Finset.card_insert_of_notMem hv]
        omega
      obtain ⟨g, hg⟩ := h.all _ hc
      have hl2 := (h.least _ hg).2.1 l hl'
      obtain ⟨w, hw, hwle⟩ := k2.seen e.1 (g + (query (pgs v) e.1).2) (Or.inr ⟨_, hg, v, by simp, by simp [hv], by simp [hv]⟩)
      rw [k2.fn e he] at hw
      cases hw
      refine hwle.trans ?_
      simp only [cost]
      rw [add_comm]
      exact add_le_add_right hl2 _
  · have hne : U ≠ Finset.univ := by
      rintro rfl
      simp at hU
    obtain ⟨v, hv⟩ : ∃ v, v ∉ U := by
      by_contra hc
      push Not at hc
      exact hne (Finset.eq_univ_iff_forall.2 hc)
    have hc : ((insert v U)ᶜ).card = j := by
      rw [Finset.card_compl] at hU ⊢
      rw [Finset.card_insert_of_notMem hv]
      omega
    obtain ⟨g, hg⟩ := h.all _ hc
    obtain ⟨w, hw, -⟩ := k2.seen U (g + (query (pgs v) U).2) (Or.inr ⟨_, hg, v, by simp, by simp [hv], by simp [hv]⟩)
    exact ⟨w, PDict.get_mem hw⟩

theorem pdLevels_final {pgs : Fin d → PG d K} : ∀ (k j : Nat) (st : PDState d K) (D : PDict d K), Level pgs j D → FinalOk pgs j st.final →
    FinalOk pgs (j + k) (pdLevels pgs k (st, D)).1.final
  | 0, j, st, D, _, h => h
  | k + 1, j, st, D, h1, h2 => by
    obtain ⟨a, b⟩ := level_step h1 h2
    have := pdLevels_final k (j + 1) (D.foldl (pdStep pgs) (st, [])).1 (D.foldl (pdStep pgs) (st, [])).2 a b
    rw [show j + (k + 1) = j + 1 + k by omega]
    exact this

/-- **C34 (the stored patterns).** Every pattern kept by `create_dynamic_pd` has fewer than `k` variables, and its value is exactly the
least cost of placing its variables after all the others. -/
theorem C34_patterns_exact_partial (pgs : Fin d → PG d K) (k : Nat) {P : Finset (Fin d)} {v : WithTop K} (h : (P, v) ∈ createPD pgs k) :
    P.card < k ∧ (∀ l, Completion Pᶜ l → v ≤ cost pgs Pᶜ l) ∧ ∃ l, Completion Pᶜ l ∧ v = cost pgs Pᶜ l := by
  have h0 : Level pgs 0 [((Finset.univ : Finset (Fin d)), (0 : WithTop K))] := by
    refine ⟨fun e he => ?_, fun U hU => ⟨0, ?_⟩⟩
    · simp at he
      subst he
      refine ⟨by simp, fun l hl => ?_, [], ⟨by simp, by simp⟩, rfl⟩
      have : l = [] := List.eq_nil_iff_forall_not_mem.2 fun v hv => by have := (hl.2 v).1 hv; simp at this
      simp [this, cost]
    · simp at hU
      simp [hU]
  have := pdLevels_final k 0 ⟨[], [(Finset.univ, 0)], []⟩ [(Finset.univ, 0)] h0 (by intro e he; simp at he)
  unfold createPD at h
  rw [List.mem_insertionSort, List.mem_filter] at h
  have := this _ h.1
  rw [Nat.zero_add] at this
  exact ⟨this.1, this.2⟩

/-- what variable `v` costs in the order `l` -/
def share (pgs : Fin d → PG d K) : Finset (Fin d) → List (Fin d) → Fin d → WithTop K
  | _, [], _ => 0
  | U, w :: l, v => if v = w then (query (pgs w) U).2 else share pgs (insert w U) l v

theorem cost_eq_share (pgs : Fin d → PG d K) : ∀ (l : List (Fin d)) (U : Finset (Fin d)), l.Nodup → cost pgs U l = ∑ v ∈ l.toFinset, share pgs U l v
  | [], U, _ => by simp [cost]
  | w :: l, U, h => by
    obtain ⟨h1, h2⟩ := List.nodup_cons.1 h
    rw [List.toFinset_cons, Finset.sum_insert (by simpa using h1)]
    simp only [cost, share, if_true]
    rw [cost_eq_share pgs l _ h2]
    congr 1
    refine Finset.sum_congr rfl fun v hv => ?_
    have : v ≠ w := by rintro rfl; exact h1 (by simpa using hv)
    simp [this]

theorem share_filter {pgs : Fin d → PG d K} (hs : Sorted pgs) (P : Finset (Fin d)) : ∀ (l : List (Fin d)) (U W : Finset (Fin d)), l.Nodup → U ⊆ W →
    (∀ v ∈ l, v ∉ P → v ∈ W) → cost pgs W (l.filter (· ∈ P)) ≤ ∑ v ∈ l.toFinset ∩ P, share pgs U l v
  | [], U, W, _, _, _ => by simp [cost]
  | w :: l, U, W, h, hUW, hW => by
    obtain ⟨h1, h2⟩ := List.nodup_cons.1 h
    have hrest : ∑ v ∈ l.toFinset ∩ P, share pgs U (w :: l) v = ∑ v ∈ l.toFinset ∩ P, share pgs (insert w U) l v := by
      refine Finset.sum_congr rfl fun v hv => ?_
      have : v ≠ w := by rintro rfl; exact h1 (by simpa using (Finset.mem_inter.1 hv).1)
      simp [share, this]
    by_cases hw : w ∈ P
    · rw [List.filter_cons_of_pos (by simpa using hw), List.toFinset_cons, Finset.insert_inter_of_mem hw,
        Finset.sum_insert (by simp [h1]), hrest]
      simp only [cost, share, if_true]
      exact add_le_add (query_mono (hs w) hUW) (share_filter hs P l _ _ h2 (Finset.insert_subset_insert w hUW)
        fun v hv hvP => Finset.mem_insert_of_mem (hW v (List.mem_cons_of_mem _ hv) hvP))
    · rw [List.filter_cons_of_neg (by simpa using hw), List.toFinset_cons, Finset.insert_inter_of_notMem hw, hrest]
      refine share_filter hs P l _ _ h2 (Finset.insert_subset (hW w (List.mem_cons_self ..) hw) hUW)
        fun v hv hvP => hW v (List.mem_cons_of_mem _ hv) hvP

theorem share_nonneg {pgs : Fin d → PG d K} (hn : ∀ i, ∀ e ∈ pgs i, 0 ≤ e.2) (hs : Sorted pgs) : ∀ (l : List (Fin d)) (U : Finset (Fin d)) (v : Fin d), 0 ≤ share pgs U l v
  | [], _, _ => by simp [share]
  | w :: l, U, v => by
    simp only [share]
    split
    · rcases query_spec (hs w) U with ⟨e1, -⟩ | ⟨e, e1, e2, -, -⟩
      · rw [e1]; simp
      · rw [e2]; exact WithTop.coe_le_coe.2 (hn w e e1)
    · exact share_nonneg hn hs l _ v

/-- **C34 (the heuristic on the right argument).** For scores that are not negative, `compute_dynamic_h` applied to the variables *still to be
placed* never exceeds the cost of any completion. (The code applies it to the variables already placed.) -/
theorem C34_right_argument_partial {pgs : Fin d → PG d K} (hs : Sorted pgs) (hn : ∀ i, ∀ e ∈ pgs i, 0 ≤ e.2) (k : Nat) {U : Finset (Fin d)}
    {l : List (Fin d)} (hl : Completion U l) : dynamicH (createPD pgs k) Uᶜ ≤ cost pgs U l := by
  have hlU : l.toFinset = Uᶜ := by ext v; simp [hl.2]
  rw [cost_eq_share pgs l U hl.1, hlU]
  unfold dynamicH
  have key : ∀ (D : PDict d K) (r : Finset (Fin d) × WithTop K), (∀ e ∈ D, LeastCost pgs (e.1ᶜ) e.2) → r.1 ⊆ Uᶜ →
      r.2 ≤ ∑ v ∈ Uᶜ \ r.1, share pgs U l v →
      (D.foldl (fun (r : Finset (Fin d) × WithTop K) e => if e.1 ⊆ r.1 then (r.1 \ e.1, r.2 + e.2) else r) r).1 ⊆ Uᶜ ∧
      (D.foldl (fun (r : Finset (Fin d) × WithTop K) e => if e.1 ⊆ r.1 then (r.1 \ e.1, r.2 + e.2) else r) r).2 ≤
        ∑ v ∈ Uᶜ \ (D.foldl (fun (r : Finset (Fin d) × WithTop K) e => if e.1 ⊆ r.1 then (r.1 \ e.1, r.2 + e.2) else r) r).1, share pgs U l v := by
    intro D
    induction D with
    | nil => intro r _ h1 h2; exact ⟨h1, h2⟩
    | cons e D ih =>
      intro r hD h1 h2
      simp only [List.foldl_cons]
      refine ih _ (fun e' he' => hD e' (List.mem_cons_of_mem _ he')) ?_ ?_
      · split
        · exact Finset.sdiff_subset.trans h1
        · exact h1
      · split
        · rename_i hsub
          have hd : Uᶜ \ (r.1 \ e.1) = (Uᶜ \ r.1) ∪ e.1 := by
            ext v
            have := @hsub v
            have := @h1 v
            simp only [Finset.mem_sdiff, Finset.mem_union] at *
            tauto
          have hdis : Disjoint (Uᶜ \ r.1) e.1 := Finset.disjoint_left.2 fun v hv hv' => (Finset.mem_sdiff.1 hv).2 (hsub hv')
          rw [hd, Finset.sum_union hdis]
          refine add_le_add h2 ?_
          have hc : Completion (e.1ᶜ) (l.filter (· ∈ e.1)) := by
            refine ⟨hl.1.filter _, fun v => ?_⟩
            simp only [List.mem_filter, decide_eq_true_eq, Finset.mem_compl, not_not]
            exact ⟨fun h => h.2, fun h => ⟨(hl.2 v).2 (Finset.mem_compl.1 (h1 (hsub h))), h⟩⟩
          refine ((hD e (List.mem_cons_self ..)).1 _ hc).trans ?_
          have := share_filter hs e.1 l U (e.1ᶜ) hl.1
            (fun v hv => Finset.mem_compl.2 fun hve => Finset.mem_compl.1 (h1 (hsub hve)) hv) (fun v _ hv => Finset.mem_compl.2 hv)
          rw [hlU, Finset.inter_eq_right.2 (hsub.trans h1)] at this
          exact this
        · exact h2
  obtain ⟨a, b⟩ := key (createPD pgs k) (Uᶜ, 0) (fun e he => (C34_patterns_exact_partial pgs k (P := e.1) (v := e.2) he).2) (le_refl _) (by simp)
  exact b.trans (Finset.sum_le_sum_of_subset_of_nonneg Finset.sdiff_subset fun v _ _ => share_nonneg hn hs l U v)

/-- **C34 (the repaired call).** With scores that are not negative, A* with the k-cycle heuristic applied to the variables still to be placed would
return an optimal DAG, with or without path extension. -/
theorem C34_repaired_optimal_partial (Q : PQ.HeapQ (Finset (Fin d)) (Structs d) (WithTop K)) {sup incl : Fin d → Fin d → Bool}
    {order : Fin d → List (Fin d)} (ho : Lists sup order) {score : Fin d → Finset (Fin d) → K} (hn : ∀ i S, 0 ≤ score i S) (maxPar : Nat)
    (hex : ∃ pa, AdmissibleDag sup incl maxPar pa) (ext : Bool) (k : Nat) :
    let pgs := parentGraphs score maxPar order incl
    ∃ f0, ∀ f, f0 ≤ f → ∃ s, astar Q pgs ext (fun U => dynamicH (createPD pgs k) Uᶜ) f = some s ∧
      OptimalDag score sup incl maxPar (parentsOf (toMatrix s)) := by
  intro pgs
  have hs := pgs_sorted (incl := incl) ho score maxPar
  have hnn : ∀ i, ∀ e ∈ pgs i, 0 ≤ e.2 := by
    intro i e he
    rw [((pgs_inv (incl := incl) ho score maxPar i).sc e he).1]
    exact hn _ _
  obtain ⟨f0, h0⟩ := astar_spec Q hs ext (fun U => dynamicH (createPD pgs k) Uᶜ)
  refine ⟨f0, fun f hf => ?_⟩
  obtain ⟨s, g, h1, h2, h3⟩ := h0 f hf
  refine ⟨s, h1, (optimal_of_real ho score maxPar hex h2 (h3 ?_ fun U l hl => C34_right_argument_partial hs hnn k hl)).1⟩
  have hle := C34_right_argument_partial hs hnn k (U := Finset.univ) (l := []) ⟨by simp, by simp⟩
  refine le_antisymm (by simpa [cost] using hle) ?_
  have key : ∀ (D : PDict d K) (r : Finset (Fin d) × WithTop K), (∀ e ∈ D, 0 ≤ e.2) → 0 ≤ r.2 →
      0 ≤ (D.foldl (fun (r : Finset (Fin d) × WithTop K) e => if e.1 ⊆ r.1 then (r.1 \ e.1, r.2 + e.2) else r) r).2 := by
    intro D
    induction D with
    | nil => intro r _ h; exact h
    | cons e D ih =>
      intro r hD h
      simp only [List.foldl_cons]
      refine ih _ (fun e' he' => hD e' (List.mem_cons_of_mem _ he')) ?_
      split
      · exact add_nonneg h (hD e (List.mem_cons_self ..))
      · exact h
  refine key _ _ (fun e he => ?_) (le_refl _)
  obtain ⟨-, -, l, hl, hv⟩ := C34_patterns_exact_partial pgs k (P := e.1) (v := e.2) he
  rw [hv, cost_eq_share _ _ _ hl.1]
  exact Finset.sum_nonneg fun v _ => share_nonneg hnn hs l _ v

/-- scores of three variables for the example: 0 is best explained by 1 and 1 by 0 -/
def cycScore : Fin 3 → Finset (Fin 3) → Int := fun i S => if i = 2 then 0 else if (1 - i : Fin 3) ∈ S then 1 else 4

/-- the database then holds that pair: its exact cost 5 beats the simple estimate 2 -/
example : createPD (parentGraphs cycScore 3 fullOrder (fun _ _ => false)) 3 = [({0, 1}, ((5 : Int) : WithTop Int))] := by decide +kernel

example (Q : PQ.HeapQ (Finset (Fin 3)) (Structs 3) (WithTop Int)) : ∃ f s,
    astar Q (parentGraphs cycScore 3 fullOrder (fun _ _ => false)) true
      (fun U => dynamicH (createPD (parentGraphs cycScore 3 fullOrder (fun _ _ => false)) 3) Uᶜ) f = some s ∧
    OptimalDag cycScore fullSup (fun _ _ => false) 3 (parentsOf (toMatrix s)) := by
  obtain ⟨f0, h⟩ := C34_repaired_optimal_partial Q fullLists (score := cycScore) (by intro i S; unfold cycScore; split_ifs <;> decide) 3
    ⟨_, admissible_empty (d := 3) _ _⟩ true 3
  obtain ⟨s, h1, h2⟩ := h f0 (le_refl _)
  exact ⟨f0, s, h1, h2⟩

end Exact
end CL
