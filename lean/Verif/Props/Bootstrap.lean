import Verif.Model.Bootstrap
import Verif.Props.LingamPaths
import Mathlib.Data.List.Sort
import Mathlib.Algebra.BigOperators.Group.List.Lemmas
import Mathlib.Algebra.Order.Ring.Rat
import Mathlib.Tactic.Linarith
import Mathlib.Tactic.NormNum
import Mathlib.Tactic.Positivity

/-!
# C136 (`get_directed_acyclic_graph_counts`), C137 (`get_total_causal_effects`) and C138 (`get_paths`) of `BootstrapResult`
-/
namespace CL.Lingam

/-! ## Specification -/

/-- Two sample matrices give the same graph: the same cells exceed the threshold and, if signs are split, with the same sign. -/
def SameGraph {R : Type} (exceeds : R → Bool) (sign : R → Int) (split : Bool) (n : Nat) (a b : Nat → Nat → R) : Prop :=
  ∀ j i, j < n → i < n → exceeds (a j i) = exceeds (b j i) ∧ (split = true → exceeds (a j i) = true → sign (a j i) = sign (b j i))

/-- `g` lists exactly the directions (target, source, sign or 0) of the sample. -/
def Lists {R : Type} (exceeds : R → Bool) (sign : R → Int) (split : Bool) (n : Nat) (am : Nat → Nat → R) (g : List (Nat × Nat × Int)) : Prop :=
  g.Nodup ∧ ∀ j i sg, (j, i, sg) ∈ g ↔ j < n ∧ i < n ∧ exceeds (am j i) = true ∧ sg = if split then sign (am j i) else 0

/-- `m` is a median of `l`: at most half of the values are smaller and at most half are larger. -/
def IsMedian {K : Type} [LinearOrder K] (m : K) (l : List K) : Prop :=
  2 * l.countP (fun x => decide (x < m)) ≤ l.length ∧ 2 * l.countP (fun x => decide (m < x)) ≤ l.length

/-! ## Counting distinct values -/

section Unique
variable {α : Type} [DecidableEq α]

theorem mem_uniqueCounts (l : List α) (r : α × Nat) : r ∈ uniqueCounts l ↔ r.1 ∈ l ∧ r.2 = l.count r.1 := by
  unfold uniqueCounts
  rw [List.mem_map]
  constructor
  · rintro ⟨d, hd, rfl⟩; exact ⟨List.mem_dedup.1 hd, rfl⟩
  · rintro ⟨h1, h2⟩; exact ⟨r.1, List.mem_dedup.2 h1, Prod.ext rfl h2.symm⟩

theorem uniqueCounts_fst (l : List α) : (uniqueCounts l).map Prod.fst = l.dedup := by
  unfold uniqueCounts
  rw [List.map_map]
  exact List.map_id _

theorem uniqueCounts_sum (l : List α) : ((uniqueCounts l).map Prod.snd).sum = l.length := by
  unfold uniqueCounts
  rw [List.map_map]
  exact List.sum_map_count_dedup_eq_length l

theorem count_map_eq {β : Type} (f : β → α) (l : List β) (a : α) : (l.map f).count a = l.countP fun b => decide (f b = a) := by
  rw [List.count, List.countP_map]
  refine List.countP_congr fun b _ => ?_
  simp

/-- What is left of the sorted list of distinct values after the truncation. -/
theorem top_spec (sortDesc : List (α × Nat) → List (α × Nat)) (hperm : ∀ l, (sortDesc l).Perm l)
    (hdesc : ∀ l, (sortDesc l).Pairwise fun a b => b.2 ≤ a.2) (nTop : Option Nat) (l : List α) :
    let L := nTop.elim (sortDesc (uniqueCounts l)) fun k => (sortDesc (uniqueCounts l)).take k
    (L.map Prod.fst).Nodup ∧ L.Pairwise (fun a b => b.2 ≤ a.2) ∧ (∀ r ∈ L, r.1 ∈ l ∧ r.2 = l.count r.1) ∧
    (∀ k, nTop = some k → L.length ≤ k) ∧ (nTop = none → (L.map Prod.snd).sum = l.length) ∧
    (∀ d ∈ l, (d, l.count d) ∈ L ∨ (∃ k, nTop = some k ∧ L.length = k ∧ ∀ r ∈ L, l.count d ≤ r.2)) := by
  intro L
  have hp := hperm (uniqueCounts l)
  have hd := hdesc (uniqueCounts l)
  have hsub : L.Sublist (sortDesc (uniqueCounts l)) := by
    cases nTop with
    | none => exact List.Sublist.refl _
    | some k => exact List.take_sublist _ _
  refine ⟨?_, hd.sublist hsub, ?_, ?_, ?_, ?_⟩
  · refine List.Nodup.sublist (hsub.map _) ((hp.map Prod.fst).nodup_iff.2 ?_)
    rw [uniqueCounts_fst]
    exact List.nodup_dedup _
  · intro r hr
    exact (mem_uniqueCounts l r).1 (hp.mem_iff.1 (hsub.subset hr))
  · rintro k rfl
    exact List.length_take_le _ _
  · rintro rfl
    show ((sortDesc (uniqueCounts l)).map Prod.snd).sum = _
    rw [(hp.map Prod.snd).sum_eq, uniqueCounts_sum]
  · intro d hdl
    have hf : (d, l.count d) ∈ sortDesc (uniqueCounts l) := hp.mem_iff.2 ((mem_uniqueCounts l _).2 ⟨hdl, rfl⟩)
    cases nTop with
    | none => exact Or.inl hf
    | some k =>
      have hl : (d, l.count d) ∈ (sortDesc (uniqueCounts l)).take k ++ (sortDesc (uniqueCounts l)).drop k := by
        rw [List.take_append_drop]; exact hf
      rcases List.mem_append.1 hl with h | h
      · exact Or.inl h
      · refine Or.inr ⟨k, rfl, ?_, ?_⟩
        · show ((sortDesc (uniqueCounts l)).take k).length = k
          have := List.length_pos_of_mem h
          rw [List.length_drop] at this
          rw [List.length_take]; omega
        · intro r hr
          have := hd
          rw [← List.take_append_drop k (sortDesc (uniqueCounts l)), List.pairwise_append] at this
          exact this.2.2 r hr _ h

end Unique

/-! ## C136 -/

theorem sampleDirections_lists {R : Type} (exceeds : R → Bool) (sign : R → Int) (split : Bool) (n : Nat) (am : Nat → Nat → R) :
    Lists exceeds sign split n am (sampleDirections exceeds sign split n am) := by
  refine ⟨sampleDirections_nodup exceeds sign split n am, fun j i sg => ?_⟩
  rw [mem_sampleDirections]
  constructor
  · rintro ⟨h1, h2, h3, h4⟩; exact ⟨h1, h2, h3, h4.symm⟩
  · rintro ⟨h1, h2, h3, h4⟩; exact ⟨h1, h2, h3, h4.symm⟩

theorem sampleDirections_eq_iff {R : Type} (exceeds : R → Bool) (sign : R → Int) (split : Bool) (n : Nat) (a b : Nat → Nat → R) :
    sampleDirections exceeds sign split n a = sampleDirections exceeds sign split n b ↔ SameGraph exceeds sign split n a b := by
  constructor
  · intro h j i hj hi
    have hm : ∀ sg, ((j, i, sg) ∈ sampleDirections exceeds sign split n a ↔ (j, i, sg) ∈ sampleDirections exceeds sign split n b) := by
      intro sg; rw [h]
    simp only [mem_sampleDirections, hj, hi, true_and] at hm
    constructor
    · cases ha : exceeds (a j i) <;> cases hb : exceeds (b j i) <;> try rfl
      · have := (hm (if split then sign (b j i) else 0)).2 ⟨hb, rfl⟩
        rw [ha] at this; exact this.1
      · have := (hm (if split then sign (a j i) else 0)).1 ⟨ha, rfl⟩
        rw [hb] at this; exact this.1.symm
    · rintro rfl ha
      have := (hm (sign (a j i))).1 ⟨ha, rfl⟩
      simpa using this.2.symm
  · intro h
    unfold sampleDirections
    have hf : (indexPairs n).filter (fun p => exceeds (a p.1 p.2)) = (indexPairs n).filter fun p => exceeds (b p.1 p.2) := by
      refine List.filter_congr fun p hp => ?_
      rw [mem_indexPairs] at hp
      exact (h p.1 p.2 hp.1 hp.2).1
    rw [hf]
    refine List.map_congr_left fun p hp => ?_
    rw [List.mem_filter, mem_indexPairs] at hp
    have h1 := h p.1 p.2 hp.1.1 hp.1.2
    cases split with
    | false => rfl
    | true =>
      simp only [if_true]
      rw [h1.2 rfl (by rw [h1.1]; exact hp.2)]

open Classical in
/-- **C136** `get_directed_acyclic_graph_counts`: the reported graphs are pairwise different graphs of samples; each comes with
the number of samples that have this very graph; the counts do not increase; without `n_dags` every sample's graph is reported and the
counts add up to the number of samples; with `n_dags` a sample's graph is missing only if `n_dags` graphs at least as
frequent are reported. -/
theorem C136_dag_counts {R : Type} (exceeds : R → Bool) (sign : R → Int) (split : Bool) (n : Nat)
    (sortDesc : List (List (Nat × Nat × Int) × Nat) → List (List (Nat × Nat × Int) × Nat))
    (hperm : ∀ l, (sortDesc l).Perm l) (hdesc : ∀ l, (sortDesc l).Pairwise fun a b => b.2 ≤ a.2)
    (nDags : Option Nat) (samples : List (Nat → Nat → R)) :
    let L := dagCounts exceeds sign split n sortDesc nDags samples
    (L.map Prod.fst).Nodup ∧ L.Pairwise (fun a b => b.2 ≤ a.2) ∧
    (∀ g c, (g, c) ∈ L → ∃ am ∈ samples, Lists exceeds sign split n am g ∧
      c = samples.countP fun am' => decide (SameGraph exceeds sign split n am' am)) ∧
    (∀ k, nDags = some k → L.length ≤ k) ∧ (nDags = none → (L.map Prod.snd).sum = samples.length) ∧
    (∀ am ∈ samples, (∃ g c, (g, c) ∈ L ∧ Lists exceeds sign split n am g) ∨
      (∃ k, nDags = some k ∧ L.length = k ∧
        ∀ r ∈ L, (samples.countP fun am' => decide (SameGraph exceeds sign split n am' am)) ≤ r.2)) := by
  intro L
  have hc : ∀ am : Nat → Nat → R, @List.count _ instBEqOfDecidableEq (sampleDirections exceeds sign split n am) (samples.map (sampleDirections exceeds sign split n)) =
      samples.countP fun am' => decide (SameGraph exceeds sign split n am' am) := by
    intro am
    rw [count_map_eq]
    refine List.countP_congr fun am' _ => ?_
    simp only [decide_eq_true_eq]
    exact sampleDirections_eq_iff exceeds sign split n am' am
  obtain ⟨h1, h2, h3, h4, h5, h6⟩ := top_spec sortDesc hperm hdesc nDags (samples.map (sampleDirections exceeds sign split n))
  refine ⟨h1, h2, ?_, h4, ?_, ?_⟩
  · intro g c hg
    obtain ⟨hm, hcnt⟩ := h3 _ hg
    rw [List.mem_map] at hm
    obtain ⟨am, ham, rfl⟩ := hm
    exact ⟨am, ham, sampleDirections_lists exceeds sign split n am, by rw [← hc]; exact hcnt⟩
  · intro hn
    exact (h5 hn).trans (List.length_map _)
  · intro am ham
    rcases h6 _ (List.mem_map_of_mem ham) with h | ⟨k, hk, hl, hr⟩
    · exact Or.inl ⟨_, _, h, sampleDirections_lists exceeds sign split n am⟩
    · exact Or.inr ⟨k, hk, hl, fun r hr' => by rw [← hc]; exact hr r hr'⟩

/-- **C136**, the argument checks: a non-positive count or threshold is rejected, `None` means no truncation and threshold 0. -/
theorem C136_checks :
    (checkCount none = some none) ∧ (∀ k : Int, 0 < k → ∃ m : Nat, checkCount (some k) = some (some m) ∧ (m : Int) = k) ∧
    (∀ k : Int, k ≤ 0 → checkCount (some k) = none) ∧
    (checkMin (none : Option ℚ) = some 0) ∧ (∀ x : ℚ, 0 < x → checkMin (some x) = some x) ∧ (∀ x : ℚ, x ≤ 0 → checkMin (some x) = none) := by
  refine ⟨rfl, fun k hk => ⟨k.toNat, by simp [checkCount, hk], by omega⟩, fun k hk => by simp [checkCount]; omega, rfl,
    fun x hx => by simp [checkMin, hx], fun x hx => by simp [checkMin, hx]⟩

/-- Three samples, two of which have the graph 0 → 1. -/
example : dagCounts (R := Int) (fun x => decide (x ≠ 0)) Int.sign false 2 (List.insertionSort fun a b => b.2 ≤ a.2) none
    [fun j i => if (j, i) = (0, 1) then 1 else 0, fun j i => if (j, i) = (1, 0) then 2 else 0,
     fun j i => if (j, i) = (1, 0) then -3 else 0] = [([(1, 0, 0)], 2), ([(0, 1, 0)], 1)] := by decide

/-- With the signs split the two samples differ. -/
example : dagCounts (R := Int) (fun x => decide (x ≠ 0)) Int.sign true 2 (List.insertionSort fun a b => b.2 ≤ a.2) (some 2)
    [fun j i => if (j, i) = (0, 1) then 1 else 0, fun j i => if (j, i) = (1, 0) then 2 else 0,
     fun j i => if (j, i) = (1, 0) then -3 else 0] = [([(0, 1, 1)], 1), ([(1, 0, 1)], 1)] := by decide

/-! ## The median -/

section Median
variable {K : Type} [Field K] [LinearOrder K] [IsStrictOrderedRing K]

theorem getD_lt {α : Type} (l : List α) (d : α) {i : Nat} (h : i < l.length) : l.getD i d = l[i] := by
  rw [List.getD_eq_getElem?_getD, List.getElem?_eq_getElem h]; rfl

theorem countP_lt_sorted {s : List K} (hs : s.Pairwise (· ≤ ·)) {m : K} {i : Nat} (h : ∀ j (hj : j < s.length), i ≤ j → m ≤ s[j]) :
    s.countP (fun x => decide (x < m)) ≤ i := by
  rw [← List.take_append_drop i s, List.countP_append]
  have h0 : (s.drop i).countP (fun x => decide (x < m)) = 0 := by
    rw [List.countP_eq_zero]
    intro x hx
    obtain ⟨j, hj, rfl⟩ := List.getElem_of_mem hx
    rw [List.getElem_drop]
    simp only [decide_eq_true_eq, not_lt]
    exact h _ _ (by omega)
  rw [h0, Nat.add_zero]
  exact le_trans List.countP_le_length (List.length_take_le _ _)

theorem countP_gt_sorted {s : List K} (hs : s.Pairwise (· ≤ ·)) {m : K} {i : Nat} (h : ∀ j (hj : j < s.length), j < i → s[j] ≤ m) :
    s.countP (fun x => decide (m < x)) ≤ s.length - i := by
  rw [← List.take_append_drop i s, List.countP_append]
  have h0 : (s.take i).countP (fun x => decide (m < x)) = 0 := by
    rw [List.countP_eq_zero]
    intro x hx
    obtain ⟨j, hj, rfl⟩ := List.getElem_of_mem hx
    rw [List.length_take] at hj
    rw [List.getElem_take]
    simp only [decide_eq_true_eq, not_lt]
    exact h _ _ (by omega)
  rw [h0, Nat.zero_add, List.take_append_drop]
  exact le_trans List.countP_le_length (by rw [List.length_drop])

/-- The model's median is a median: of a list of odd length it is moreover an element of the list, of a list of even length the mean of two elements. -/
theorem medianOf_isMedian (l : List K) (hl : l ≠ []) : IsMedian (medianOf l) l := by
  have hp := List.perm_insertionSort (· ≤ ·) l
  have hs : (l.insertionSort (· ≤ ·)).Pairwise (· ≤ ·) := List.pairwise_insertionSort _ l
  have hlen := hp.length_eq
  have hpos : 0 < l.length := List.length_pos_of_ne_nil hl
  unfold IsMedian
  rw [← hp.countP_eq, ← hp.countP_eq, ← hlen]
  generalize hS : l.insertionSort (· ≤ ·) = s at *
  have mono : ∀ i j (hi : i < s.length) (hj : j < s.length), i ≤ j → s[i] ≤ s[j] := by
    intro i j hi hj hij
    rcases Nat.lt_or_eq_of_le hij with h | rfl
    · exact List.pairwise_iff_getElem.1 hs i j hi hj h
    · exact le_refl _
  by_cases ho : l.length % 2 = 1
  · have hm : medianOf l = s[s.length / 2]'(by omega) := by
      simp only [medianOf, ho, if_true, hS]
      rw [getD_lt _ _ (by omega)]
      simp only [hlen]
    rw [hm]
    constructor
    · have := countP_lt_sorted (m := s[s.length / 2]'(by omega)) hs (i := s.length / 2) (fun j hj hij => mono _ _ _ _ hij)
      omega
    · have := countP_gt_sorted (m := s[s.length / 2]'(by omega)) hs (i := s.length / 2 + 1) (fun j hj hij => mono _ _ _ _ (by omega))
      omega
  · have hm : medianOf l = (s[s.length / 2 - 1]'(by omega) + s[s.length / 2]'(by omega)) / 2 := by
      simp only [medianOf, ho, if_false, hS]
      rw [getD_lt _ _ (by omega), getD_lt _ _ (by omega)]
      simp only [hlen]
    have hab := mono (s.length / 2 - 1) (s.length / 2) (by omega) (by omega) (by omega)
    have h1 : s[s.length / 2 - 1]'(by omega) ≤ medianOf l := by rw [hm]; linarith
    have h2 : medianOf l ≤ s[s.length / 2]'(by omega) := by rw [hm]; linarith
    constructor
    · have := countP_lt_sorted (m := medianOf l) hs (i := s.length / 2) (fun j hj hij => le_trans h2 (mono _ _ _ _ hij))
      omega
    · have := countP_gt_sorted (m := medianOf l) hs (i := s.length / 2) (fun j hj hij => le_trans (mono _ _ _ _ (by omega)) h1)
      omega

end Median

/-! ## C137 -/

section Effects
variable {K : Type} [Field K] [LinearOrder K] [IsStrictOrderedRing K]

/-- The effects of `from_` on `tgt` in the samples in which they exceed the threshold in absolute value. -/
def exceeding (thr : K) (te : List (Nat → Nat → K)) (tgt from_ : Nat) : List K :=
  (te.filter fun m => decide (thr < |m tgt from_|)).map fun m => m tgt from_

theorem effectProb_eq (thr : K) (te : List (Nat → Nat → K)) (tgt from_ : Nat) :
    effectProb thr te tgt from_ = ((exceeding thr te tgt from_).length : K) / (te.length : K) := by
  unfold effectProb exceeding
  rw [List.length_map, ← List.countP_eq_length_filter]

theorem effectProb_pos (thr : K) (te : List (Nat → Nat → K)) (tgt from_ : Nat) :
    0 < |effectProb thr te tgt from_| ↔ ∃ m ∈ te, thr < |m tgt from_| := by
  rw [abs_pos, effectProb_eq]
  constructor
  · intro h
    by_contra hc
    push Not at hc
    apply h
    have : exceeding thr te tgt from_ = [] := by
      unfold exceeding
      rw [List.map_eq_nil_iff, List.filter_eq_nil_iff]
      intro m hm
      simpa using hc m hm
    rw [this]; simp
  · rintro ⟨m, hm, h⟩
    have h1 : 0 < (exceeding thr te tgt from_).length := by
      refine List.length_pos_of_mem (a := m tgt from_) (List.mem_map.2 ⟨m, List.mem_filter.2 ⟨hm, by simpa using h⟩, rfl⟩)
    have h2 : 0 < te.length := List.length_pos_of_mem hm
    exact ne_of_gt (div_pos (by exact_mod_cast h1) (by exact_mod_cast h2))

theorem effectMedian_median (te : List (Nat → Nat → K)) (tgt from_ : Nat) (h : ∃ m ∈ te, 0 < |m tgt from_|) :
    IsMedian (effectMedian te tgt from_) (exceeding 0 te tgt from_) := by
  have e : (te.map fun m => m tgt from_).filter (fun x => decide (0 < |x|)) = exceeding 0 te tgt from_ := by
    unfold exceeding
    rw [List.filter_map]
    rfl
  unfold effectMedian
  rw [e]
  refine medianOf_isMedian _ ?_
  obtain ⟨m, hm, h⟩ := h
  exact List.ne_nil_of_mem (List.mem_map.2 ⟨m, List.mem_filter.2 ⟨hm, by simpa using h⟩, rfl⟩)

/-- **C137** `get_total_causal_effects`: a pair is reported, once, exactly if its effect exceeds the threshold in some sample; its
probability is the fraction of such samples; rows come by non-increasing probability; the effect is a median of the non-zero
effects. Without a threshold these are the effects of the samples counted in the probability. Partial: with a threshold they are not
(`C137_median_violated`). -/
theorem C137_total_effects_partial (n : Nat) (minEffect : Option K)
    (sortDesc : List ((Nat × Nat) × K × K) → List ((Nat × Nat) × K × K))
    (hperm : ∀ l, (sortDesc l).Perm l) (hdesc : ∀ l, (sortDesc l).Pairwise fun a b => b.2.2 ≤ a.2.2)
    (te : List (Nat → Nat → K)) (L : List ((Nat × Nat) × K × K)) (h : totalCausalEffects n minEffect sortDesc te = some L) :
    (L.map Prod.fst).Nodup ∧ L.Pairwise (fun a b => b.2.2 ≤ a.2.2) ∧
    (∀ t s e p, ((t, s), e, p) ∈ L → t < n ∧ s < n ∧
      p = ((exceeding (minEffect.getD 0) te t s).length : K) / (te.length : K) ∧ 0 < p ∧ p ≤ 1 ∧
      IsMedian e (exceeding 0 te t s) ∧ (minEffect = none → IsMedian e (exceeding (minEffect.getD 0) te t s))) ∧
    (∀ t s, t < n → s < n → ((∃ e p, ((t, s), e, p) ∈ L) ↔ ∃ m ∈ te, minEffect.getD 0 < |m t s|)) := by
  unfold totalCausalEffects at h
  rw [Option.map_eq_some_iff] at h
  obtain ⟨thr, hthr, rfl⟩ := h
  have hth : thr = minEffect.getD 0 ∧ 0 ≤ thr := by
    cases minEffect with
    | none => simp only [checkMin, Option.some_inj] at hthr; subst hthr; exact ⟨rfl, le_refl _⟩
    | some x =>
      simp only [checkMin] at hthr
      split at hthr
      · next hx => rw [Option.some_inj] at hthr; subst hthr; exact ⟨rfl, le_of_lt hx⟩
      · cases hthr
  rw [← hth.1]
  have hp := hperm (((indexPairs n).filter fun d => decide (0 < |effectProb thr te d.1 d.2|)).map fun d =>
      (d, effectMedian te d.1 d.2, effectProb thr te d.1 d.2))
  have hmem : ∀ t s e p, ((t, s), e, p) ∈ sortDesc (((indexPairs n).filter fun d => decide (0 < |effectProb thr te d.1 d.2|)).map fun d =>
      (d, effectMedian te d.1 d.2, effectProb thr te d.1 d.2)) ↔ (t < n ∧ s < n ∧ ∃ m ∈ te, thr < |m t s|) ∧
        e = effectMedian te t s ∧ p = effectProb thr te t s := by
    intro t s e p
    rw [hp.mem_iff, List.mem_map]
    constructor
    · rintro ⟨d, hd, hr⟩
      rw [List.mem_filter, mem_indexPairs, decide_eq_true_eq, effectProb_pos] at hd
      simp only [Prod.mk.injEq] at hr
      obtain ⟨rfl, rfl, rfl⟩ := hr
      exact ⟨⟨hd.1.1, hd.1.2, hd.2⟩, rfl, rfl⟩
    · rintro ⟨⟨h1, h2, h3⟩, rfl, rfl⟩
      refine ⟨(t, s), ?_, rfl⟩
      rw [List.mem_filter, mem_indexPairs, decide_eq_true_eq, effectProb_pos]
      exact ⟨⟨h1, h2⟩, h3⟩
  refine ⟨?_, hdesc _, ?_, ?_⟩
  · refine (hp.map Prod.fst).nodup_iff.2 ?_
    rw [List.map_map]
    have : (Prod.fst ∘ fun d : Nat × Nat => (d, effectMedian te d.1 d.2, effectProb thr te d.1 d.2)) = id := rfl
    rw [this, List.map_id]
    exact (indexPairs_nodup n).filter _
  · intro t s e p hrow
    obtain ⟨⟨h1, h2, m, hm, h3⟩, rfl, rfl⟩ := (hmem t s e p).1 hrow
    have hmed := effectMedian_median te t s ⟨m, hm, lt_of_le_of_lt hth.2 h3⟩
    have hlen : (exceeding thr te t s).length ≤ te.length := by
      unfold exceeding; rw [List.length_map]; exact List.length_filter_le _ _
    have hpos : 0 < te.length := List.length_pos_of_mem hm
    have hpp := (effectProb_pos thr te t s).2 ⟨m, hm, h3⟩
    refine ⟨h1, h2, effectProb_eq thr te t s, ?_, ?_, hmed, ?_⟩
    · rw [abs_pos] at hpp
      refine lt_of_le_of_ne ?_ (Ne.symm hpp)
      rw [effectProb_eq]
      positivity
    · rw [effectProb_eq, div_le_one (by exact_mod_cast hpos)]
      exact_mod_cast hlen
    · rintro rfl
      rw [hth.1]; exact hmed
  · intro t s h1 h2
    constructor
    · rintro ⟨e, p, hm⟩; exact ((hmem t s e p).1 hm).1.2.2
    · intro h3; exact ⟨_, _, (hmem t s _ _).2 ⟨⟨h1, h2, h3⟩, rfl, rfl⟩⟩

end Effects

/-- **C137** is violated with a threshold: of the effects 1/10 and 1 only the second exceeds the threshold 1/2, and the pair is reported with
probability 1/2, but with the effect 11/20, which is no median of the effects that were counted. -/
theorem C137_median_violated : ∃ L e p, totalCausalEffects (K := ℚ) 2 (some (1/2)) (List.insertionSort fun a b => b.2.2 ≤ a.2.2)
    [fun j i => if (j, i) = (1, 0) then 1/10 else 0, fun j i => if (j, i) = (1, 0) then 1 else 0] = some L ∧ ((1, 0), e, p) ∈ L ∧
    exceeding (1/2 : ℚ) [fun j i => if (j, i) = (1, 0) then 1/10 else 0, fun j i => if (j, i) = (1, 0) then 1 else 0] 1 0 = [1] ∧
    ¬ IsMedian e (exceeding (1/2 : ℚ) [fun j i => if (j, i) = (1, 0) then 1/10 else 0, fun j i => if (j, i) = (1, 0) then 1 else 0] 1 0) := by
  refine ⟨[((1, 0), 11/20, 1/2)], 11/20, 1/2, by decide +kernel, by decide +kernel, by decide +kernel, ?_⟩
  unfold IsMedian
  decide +kernel

/-! ## C138 -/

section Paths
variable {K : Type} [Field K] [LinearOrder K] [IsStrictOrderedRing K]

/-- The edges of a sample without a threshold. -/
abbrev nonzero (x : K) : Bool := decide (0 < |x|)

open Classical in
/-- The samples with the path `p` from `s` to `t`. -/
noncomputable def withPath (n : Nat) (am : List (Nat → Nat → K)) (s t : Nat) (p : List Nat) : List (Nat → Nat → K) :=
  am.filter fun m => decide (IsPathB nonzero n m s t p)

theorem filter_fst_nodup {α β : Type} [DecidableEq α] {L : List (α × β)} (hn : (L.map Prod.fst).Nodup) {a : α} {b : β}
    (h : (a, b) ∈ L) : L.filter (fun q => decide (q.1 = a)) = [(a, b)] := by
  induction L with
  | nil => cases h
  | cons q L ih =>
    rw [List.map_cons, List.nodup_cons] at hn
    rcases List.mem_cons.1 h with rfl | h'
    · rw [List.filter_cons_of_pos (by simp)]
      congr 1
      rw [List.filter_eq_nil_iff]
      intro r hr
      simp only [decide_eq_true_eq]
      rintro rfl
      exact hn.1 (List.mem_map.2 ⟨r, hr, rfl⟩)
    · rw [List.filter_cons_of_neg, ih hn.2 h']
      simp only [decide_eq_true_eq]
      rintro rfl
      exact hn.1 (List.mem_map.2 ⟨_, h', rfl⟩)

theorem allPaths_spec (n : Nat) (s t : Nat) (hs : s < n) (hst : s ≠ t) (am : List (Nat → Nat → K))
    (hac : ∀ m ∈ am, ∀ i, ¬ Relation.TransGen (EdgeB nonzero n m) i i) :
    ∃ (k : Nat) (rs : List (List (List Nat × K))), (∀ fuel, (am.mapM fun m => findAllPaths nonzero n m s t (k + fuel)) = some (rs.map some)) ∧
      ∀ p, rs.flatten.filter (fun q => decide (q.1 = p)) = (withPath n am s t p).map fun m => (p, effectOf m p) := by
  induction am with
  | nil => exact ⟨0, [], fun _ => rfl, fun p => rfl⟩
  | cons m am ih =>
    obtain ⟨k1, rs, h1, h2⟩ := ih fun m' hm' => hac m' (by simp [hm'])
    obtain ⟨k2, L, h3, h4, h5⟩ := C45_find_all_paths_exact nonzero n m (hac m (by simp)) s t hs hst
    refine ⟨k1 + k2, L :: rs, fun fuel => ?_, fun p => ?_⟩
    · have e1 := h1 (k2 + fuel)
      have e2 := h3 (k1 + fuel)
      rw [show k2 + (k1 + fuel) = k1 + k2 + fuel by omega] at e2
      rw [show k1 + (k2 + fuel) = k1 + k2 + fuel by omega] at e1
      rw [List.mapM_cons, e2, e1]
      rfl
    · rw [List.flatten_cons, List.filter_append, h2]
      unfold withPath
      by_cases hp : IsPathB nonzero n m s t p
      · rw [List.filter_cons_of_pos (by simpa using hp), filter_fst_nodup h4 ((h5 p _).2 ⟨hp, rfl⟩)]
        rfl
      · rw [List.filter_cons_of_neg (by simpa using hp)]
        have : L.filter (fun q => decide (q.1 = p)) = [] := by
          rw [List.filter_eq_nil_iff]
          intro q hq
          simp only [decide_eq_true_eq]
          rintro rfl
          exact hp ((h5 q.1 q.2).1 hq).1
        rw [this, List.nil_append]

/-- **C138** `get_paths` for different end points and acyclic samples: the call terminates without error; the rows are exactly the directed
paths from source to target that occur in some sample, each once, by non-increasing probability; the probability is the fraction of the samples
containing the path and the effect a median over these samples of the product of the coefficients along the path. Partial: this
describes the call without `min_causal_effect`, which is ignored (`C138_min_effect_violated`). -/
theorem C138_paths_partial (n : Nat) (am : List (Nat → Nat → K)) (s t : Nat) (hs : s < n) (hst : s ≠ t)
    (hac : ∀ m ∈ am, ∀ i, ¬ Relation.TransGen (EdgeB nonzero n m) i i) (minEffect : K)
    (sortDesc : List (List Nat × Nat) → List (List Nat × Nat)) (hperm : ∀ l, (sortDesc l).Perm l)
    (hdesc : ∀ l, (sortDesc l).Pairwise fun a b => b.2 ≤ a.2) :
    ∃ k L, (∀ fuel, getPaths n am s t minEffect sortDesc (k + fuel) = some (some L)) ∧ (L.map Prod.fst).Nodup ∧
      L.Pairwise (fun a b => b.2.2 ≤ a.2.2) ∧
      (∀ p, p ∈ L.map Prod.fst ↔ ∃ m ∈ am, IsPathB nonzero n m s t p) ∧
      (∀ p e pr, (p, e, pr) ∈ L → pr = ((withPath n am s t p).length : K) / (am.length : K) ∧
        IsMedian e ((withPath n am s t p).map fun m => effectOf m p)) := by
  obtain ⟨k, rs, h1, h2⟩ := allPaths_spec n s t hs hst am hac
  have hfst : ∀ p, @List.count _ instBEqOfDecidableEq p (rs.flatten.map Prod.fst) = (withPath n am s t p).length := by
    intro p
    rw [count_map_eq, List.countP_eq_length_filter, h2, List.length_map]
  have hmem : ∀ p, p ∈ rs.flatten.map Prod.fst ↔ ∃ m ∈ am, IsPathB nonzero n m s t p := by
    intro p
    rw [← @List.count_pos_iff _ instBEqOfDecidableEq, hfst]
    constructor
    · intro h
      obtain ⟨m, hm⟩ := List.exists_mem_of_length_pos h
      simp only [withPath, List.mem_filter, decide_eq_true_eq] at hm
      exact ⟨m, hm.1, hm.2⟩
    · rintro ⟨m, hm, hp⟩
      refine List.length_pos_of_mem (a := m) ?_
      simp only [withPath, List.mem_filter, decide_eq_true_eq]
      exact ⟨hm, hp⟩
  have hp := hperm (uniqueCounts (rs.flatten.map Prod.fst))
  have hrun : (rs.map some).mapM id = some rs := by
    have := mapM_some (f := id) (g := fun o : Option (List (List Nat × K)) => o.getD []) (rs.map some) (by
      intro a ha
      obtain ⟨r, -, rfl⟩ := List.mem_map.1 ha
      rfl)
    rw [this, List.map_map]
    congr 1
    exact List.map_id _
  have hfm : ((sortDesc (uniqueCounts (rs.flatten.map Prod.fst))).map fun pc : List Nat × Nat =>
      (pc.1, medianOf ((rs.flatten.filter fun q => decide (q.1 = pc.1)).map Prod.snd), ((pc.2 : Nat) : K) / (am.length : Nat))).map Prod.fst =
      (sortDesc (uniqueCounts (rs.flatten.map Prod.fst))).map Prod.fst := by
    rw [List.map_map]; rfl
  refine ⟨k, (sortDesc (uniqueCounts (rs.flatten.map Prod.fst))).map fun pc =>
      (pc.1, medianOf ((rs.flatten.filter fun q => decide (q.1 = pc.1)).map Prod.snd), ((pc.2 : Nat) : K) / (am.length : Nat)),
      fun fuel => ?_, ?_, ?_, ?_, ?_⟩
  · unfold getPaths allPathsOf
    rw [h1 fuel]
    simp only [Option.map_some, hrun]
  · rw [hfm]
    refine (hp.map Prod.fst).nodup_iff.2 ?_
    rw [uniqueCounts_fst]
    exact List.nodup_dedup _
  · rw [List.pairwise_map]
    refine (hdesc _).imp fun {a b} hab => ?_
    have : ((b.2 : Nat) : K) ≤ ((a.2 : Nat) : K) := by exact_mod_cast hab
    exact div_le_div_of_nonneg_right this (by positivity)
  · intro p
    rw [hfm, (hp.map Prod.fst).mem_iff, uniqueCounts_fst, List.mem_dedup]
    exact hmem p
  · intro p e pr hrow
    rw [List.mem_map] at hrow
    obtain ⟨pc, hpc, hr⟩ := hrow
    simp only [Prod.mk.injEq] at hr
    obtain ⟨rfl, rfl, rfl⟩ := hr
    obtain ⟨hin, hcnt⟩ := (mem_uniqueCounts _ _).1 (hp.mem_iff.1 hpc)
    have hcnt' : pc.2 = (withPath n am s t pc.1).length := hcnt.trans (hfst _)
    refine ⟨by rw [hcnt'], ?_⟩
    rw [h2, List.map_map]
    have e : (Prod.snd ∘ fun m : Nat → Nat → K => (pc.1, effectOf m pc.1)) = fun m => effectOf m pc.1 := rfl
    rw [e]
    refine medianOf_isMedian _ ?_
    rw [← List.length_pos_iff_ne_nil, List.length_map, ← hfst]
    exact (@List.count_pos_iff _ instBEqOfDecidableEq _ _ _).2 hin

end Paths

/-- **C138** is violated for the argument `min_causal_effect`: the only sample has the single edge 0 → 1 with coefficient 1/10, which
the threshold 1/2 should exclude; the path is reported all the same. -/
theorem C138_min_effect_violated : getPaths (K := ℚ) 2 [fun j i => if (j, i) = (1, 0) then 1/10 else 0] 0 1 (1/2)
    (List.insertionSort fun a b => b.2 ≤ a.2) 10 = some (some [([0, 1], 1/10, 1)]) := by decide +kernel

/-- Three samples; the path 0 → 1 → 2 occurs in two of them, with effects 2 and 12; the edge 0 → 2 in one. -/
example : getPaths (K := ℚ) 3 [fun j i => if (j, i) = (1, 0) then 2 else if (j, i) = (2, 1) then 1 else 0,
      fun j i => if (j, i) = (1, 0) then 3 else if (j, i) = (2, 1) then 4 else if (j, i) = (2, 0) then 5 else 0,
      fun j i => if (j, i) = (0, 2) then 1 else 0] 0 2 0
    (List.insertionSort fun a b => b.2 ≤ a.2) 20 = some (some [([0, 1, 2], 7, 2/3), ([0, 2], 5, 1/3)]) := by decide +kernel

end CL.Lingam
