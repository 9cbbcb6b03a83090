import Verif.Model.LongBoot
import Verif.Props.Bootstrap
import Verif.Props.TimeSeries
import Verif.Props.TsPrune

/-!
# C144: the bootstrap of Longitudinal LiNGAM
-/
namespace CL
namespace LB
open TS (put)

theorem put_cells {V : Type} (val : Nat → Nat → V) (cells : List (Nat × Nat)) (m : Nat → Nat → V) (a b : Nat) :
    cells.foldl (fun m c => put m c.1 c.2 (val c.1 c.2)) m a b = if (a, b) ∈ cells then val a b else m a b := by
  induction cells generalizing m with
  | nil => simp
  | cons c cells ih =>
    rw [List.foldl_cons, ih]
    simp only [List.mem_cons, put]
    by_cases h1 : (a, b) ∈ cells
    · simp [h1]
    · by_cases h2 : (a, b) = c
      · subst h2; simp
      · have : ¬ (a = c.1 ∧ b = c.2) := fun h => h2 (Prod.ext h.1 h.2)
        simp [h1, h2, this]

/-- the cells written by the loops -/
def cells (T p start : Nat) (orders : Nat → List Nat) : List (Nat × Nat) :=
  ((List.range T).drop start).flatMap fun from_t => ((orders from_t).zipIdx).flatMap fun cf =>
    (((orders from_t).drop (cf.2 + 1)).map fun t => (from_t * p + t, from_t * p + cf.1)) ++
      ((List.range T).drop (from_t + 1)).flatMap fun to_t => (orders to_t).map fun t => (to_t * p + t, from_t * p + cf.1)

theorem mem_drop_range (T s t : Nat) : t ∈ (List.range T).drop s ↔ s ≤ t ∧ t < T := by
  rw [List.range_eq_range', List.drop_range', List.mem_range'_1]
  omega

theorem foldl_congr_mem {α β : Type} (l : List α) (f g : β → α → β) (b : β) (h : ∀ b, ∀ a ∈ l, f b a = g b a) : l.foldl f b = l.foldl g b := by
  induction l generalizing b with
  | nil => rfl
  | cons a l ih => rw [List.foldl_cons, List.foldl_cons, h b a (by simp), ih _ fun b a' ha' => h b a' (by simp [ha'])]

theorem totalEffects_cells {V : Type} (zero : V) (T p start : Nat) (orders : Nat → List Nat) (hlt : ∀ t, start ≤ t → ∀ i ∈ orders t, i < p)
    (te : Nat → Nat → Nat → Nat → V) : totalEffects zero T p start orders te =
      (cells T p start orders).foldl (fun m c => put m c.1 c.2 ((fun a b => te (b / p) (b % p) (a / p) (a % p)) c.1 c.2)) fun _ _ => zero := by
  unfold totalEffects cells
  have hdm : ∀ t i, i < p → (t * p + i) / p = t ∧ (t * p + i) % p = i := fun t i hi => by
    rw [Nat.mul_comm]; exact TsP.block_div p t i hi
  rw [List.foldl_flatMap]
  refine foldl_congr_mem _ _ _ _ fun m ft hft => ?_
  rw [mem_drop_range] at hft
  rw [List.foldl_flatMap]
  refine foldl_congr_mem _ _ _ _ fun m cf hcf => ?_
  have hcf1 : cf.1 ∈ orders ft := by
    rw [List.mem_zipIdx_iff_getElem?] at hcf
    exact List.mem_of_getElem? hcf
  have hc := hdm ft cf.1 (hlt ft hft.1 _ hcf1)
  rw [List.foldl_append, List.foldl_map, List.foldl_flatMap]
  have e1 : ((orders ft).drop (cf.2 + 1)).foldl (fun m t => put m (ft * p + t) (ft * p + cf.1) (te ft cf.1 ft t)) m =
      ((orders ft).drop (cf.2 + 1)).foldl (fun m t => put m (ft * p + t) (ft * p + cf.1)
        (te ((ft * p + cf.1) / p) ((ft * p + cf.1) % p) ((ft * p + t) / p) ((ft * p + t) % p))) m := by
    refine foldl_congr_mem _ _ _ _ fun m t ht => ?_
    have := hdm ft t (hlt ft hft.1 t (List.mem_of_mem_drop ht))
    rw [hc.1, hc.2, this.1, this.2]
  dsimp only
  rw [e1]
  refine foldl_congr_mem _ _ _ _ fun m tt htt => ?_
  rw [mem_drop_range] at htt
  rw [List.foldl_map]
  refine foldl_congr_mem _ _ _ _ fun m t ht => ?_
  have := hdm tt t (hlt tt (by omega) t ht)
  dsimp only
  rw [hc.1, hc.2, this.1, this.2]

theorem mem_drop_zipIdx (l : List Nat) (a b : Nat) : (∃ k, (b, k) ∈ l.zipIdx ∧ a ∈ l.drop (k + 1)) ↔ [b, a].Sublist l := by
  induction l with
  | nil => simp
  | cons y l ih =>
    rw [List.zipIdx_cons]
    constructor
    · rintro ⟨k, h1, h2⟩
      rcases List.mem_cons.1 h1 with h | h
      · cases h
        simp only [Nat.zero_add, List.drop_succ_cons, List.drop_zero] at h2
        exact List.cons_sublist_cons.2 (List.singleton_sublist.2 h2)
      · obtain ⟨⟨c, j⟩, h3, h4⟩ : ∃ c, c ∈ l.zipIdx ∧ (c.1, c.2 + 1) = (b, k) := by
          rw [Nat.zero_add, List.mem_iff_getElem?] at h
          obtain ⟨i, hi⟩ := h
          rw [List.getElem?_zipIdx] at hi
          obtain ⟨c, hc, hc'⟩ := Option.map_eq_some_iff.1 hi
          simp only [Prod.mk.injEq] at hc'
          exact ⟨(c, i), by rw [List.mem_zipIdx_iff_getElem?]; exact hc, by simp [hc'.1, ← hc'.2, Nat.add_comm]⟩
        simp only [Prod.mk.injEq] at h4
        obtain ⟨rfl, rfl⟩ := h4
        rw [List.drop_succ_cons] at h2
        exact (ih.1 ⟨j, h3, h2⟩).cons _
    · intro h
      rcases List.sublist_cons_iff.1 h with h | ⟨r, h1, h2⟩
      · obtain ⟨k, h1, h2⟩ := ih.2 h
        refine ⟨k + 1, List.mem_cons_of_mem _ ?_, by rwa [List.drop_succ_cons]⟩
        rw [List.mem_zipIdx_iff_getElem?] at h1
        rw [List.mem_iff_getElem?]
        exact ⟨k, by rw [List.getElem?_zipIdx]; simp at h1; simp [h1, Nat.add_comm]⟩
      · cases h1
        exact ⟨0, by simp, by simpa using List.singleton_sublist.1 h2⟩

/-- **C144** The matrix of total effects of a bootstrap sample of Longitudinal LiNGAM: the cell in the row of (`to_t`, `to`) and the column of
(`from_t`, `from`) is the estimated effect of `from` at time `from_t` on `to` at time `to_t`, if `from_t` is not before the start and either the
times are equal and `from` precedes `to` in the causal order of this time, or `to_t` is later; all other cells are 0. -/
theorem C144_total_effects {V : Type} (zero : V) (T p start : Nat) (orders : Nat → List Nat)
    (ho : ∀ t, start ≤ t → (orders t).Perm (List.range p)) (te : Nat → Nat → Nat → Nat → V) (to_t tgt from_t from_ : Nat)
    (h1 : to_t < T) (h2 : tgt < p) (h3 : from_t < T) (h4 : from_ < p) [Decidable ([from_, tgt].Sublist (orders from_t))] :
    totalEffects zero T p start orders te (to_t * p + tgt) (from_t * p + from_) =
      if start ≤ from_t ∧ ((to_t = from_t ∧ [from_, tgt].Sublist (orders from_t)) ∨ from_t < to_t) then te from_t from_ to_t tgt else zero := by
  have hlt : ∀ t, start ≤ t → ∀ i ∈ orders t, i < p := fun t ht i hi => List.mem_range.1 ((ho t ht).mem_iff.1 hi)
  have hdm : ∀ t i, i < p → (t * p + i) / p = t ∧ (t * p + i) % p = i := fun t i hi => by
    rw [Nat.mul_comm]; exact TsP.block_div p t i hi
  have hinj : ∀ t i t' i', i < p → i' < p → t * p + i = t' * p + i' → t = t' ∧ i = i' := by
    intro t i t' i' hi hi' h
    have e1 := (hdm t i hi).1
    have e2 := (hdm t i hi).2
    rw [h] at e1 e2
    exact ⟨by rw [← e1, (hdm t' i' hi').1], by rw [← e2, (hdm t' i' hi').2]⟩
  rw [totalEffects_cells zero T p start orders hlt te, put_cells (fun a b => te (b / p) (b % p) (a / p) (a % p))]
  rw [(hdm _ _ h2).1, (hdm _ _ h2).2, (hdm _ _ h4).1, (hdm _ _ h4).2]
  refine if_congr ?_ rfl rfl
  unfold cells
  simp only [List.mem_flatMap, List.mem_append, List.mem_map, Prod.mk.injEq, mem_drop_range]
  constructor
  · rintro ⟨ft, ⟨hs, hT⟩, ⟨c, k⟩, hck, h⟩
    have hc : c ∈ orders ft := by
      rw [List.mem_zipIdx_iff_getElem?] at hck
      exact List.mem_of_getElem? hck
    have hcp := hlt ft hs c hc
    rcases h with ⟨t, ht, e1, e2⟩ | ⟨tt, ⟨htt, -⟩, t, ht, e1, e2⟩
    · obtain ⟨rfl, rfl⟩ := hinj _ _ _ _ (hlt ft hs t (List.mem_of_mem_drop ht)) h2 e1
      obtain ⟨-, rfl⟩ := hinj _ _ _ _ hcp h4 e2
      obtain rfl := (hinj _ _ _ _ hcp h4 e2).1
      exact ⟨hs, Or.inl ⟨rfl, (mem_drop_zipIdx _ _ _).1 ⟨k, hck, ht⟩⟩⟩
    · obtain ⟨rfl, rfl⟩ := hinj _ _ _ _ (hlt tt (by omega) t ht) h2 e1
      obtain ⟨rfl, rfl⟩ := hinj _ _ _ _ hcp h4 e2
      exact ⟨hs, Or.inr (by omega)⟩
  · rintro ⟨hs, ⟨rfl, h⟩ | h⟩
    · obtain ⟨k, hk1, hk2⟩ := (mem_drop_zipIdx _ _ _).2 h
      exact ⟨to_t, ⟨hs, h3⟩, (from_, k), hk1, Or.inl ⟨tgt, hk2, rfl, rfl⟩⟩
    · have hf : from_ ∈ orders from_t := (ho _ hs).mem_iff.2 (List.mem_range.2 h4)
      obtain ⟨k, hk⟩ := List.mem_iff_getElem?.1 hf
      exact ⟨from_t, ⟨hs, h3⟩, (from_, k), by rw [List.mem_zipIdx_iff_getElem?]; exact hk,
        Or.inr ⟨to_t, ⟨by omega, h1⟩, tgt, (ho _ (by omega)).mem_iff.2 (List.mem_range.2 h2), rfl, rfl⟩⟩

theorem mem_directions {R : Type} (exceeds : R → Bool) (sign : R → Int) (split : Bool) (p L : Nat) (m : Nat → Nat → Nat → Nat → Option R) (t : Nat)
    (d : Nat × Nat × Int) : d ∈ directions exceeds sign split p L m t ↔ d.1 < p ∧ d.2.1 < p * (1 + L) ∧
      ∃ v, m t (d.2.1 / p) d.1 (d.2.1 % p) = some v ∧ exceeds v = true ∧ d.2.2 = if split then sign v else 0 := by
  unfold directions
  simp only [List.mem_map, List.mem_filter, List.mem_flatMap, List.mem_range, rowOf]
  constructor
  · rintro ⟨c, ⟨⟨i, hi, j, hj, rfl⟩, h2⟩, rfl⟩
    obtain ⟨v, hv, hv'⟩ := (Option.any_eq_true _ _).1 h2
    refine ⟨hi, hj, v, hv, hv', ?_⟩
    simp only at hv ⊢
    rw [hv]; rfl
  · rintro ⟨h1, h2, v, hv, hv', h3⟩
    refine ⟨(d.1, d.2.1), ⟨⟨d.1, h1, d.2.1, h2, rfl⟩, ?_⟩, ?_⟩
    · simp [hv, hv']
    · simp only [hv, Option.map_some, Option.getD_some]
      rw [← h3]

theorem directions_nodup {R : Type} (exceeds : R → Bool) (sign : R → Int) (split : Bool) (p L : Nat) (m : Nat → Nat → Nat → Nat → Option R) (t : Nat) :
    (directions exceeds sign split p L m t).Nodup := by
  unfold directions
  refine List.Nodup.map_on ?_ (List.Nodup.filter _ ?_)
  · intro a _ b _ h
    simp only [Prod.mk.injEq] at h
    exact Prod.ext h.1 h.2.1
  · rw [List.nodup_flatMap]
    refine ⟨fun i _ => List.nodup_range.map fun a b h => (Prod.mk.injEq _ _ _ _ ▸ h).2, ?_⟩
    refine List.Pairwise.imp_of_mem (R := fun a b => a ≠ b) ?_ List.nodup_range
    intro a b _ _ hab
    rw [Function.onFun, List.disjoint_left]
    intro x hx hy
    obtain ⟨c, -, rfl⟩ := List.mem_map.1 hx
    obtain ⟨c', -, h⟩ := List.mem_map.1 hy
    exact hab (Prod.mk.injEq _ _ _ _ ▸ h).1.symm

/-- sample `m` has the direction `d` at time `t`: a number in the cell of lag `d.from / p`, above the threshold, of the given sign -/
def Has {R : Type} (exceeds : R → Bool) (sign : R → Int) (split : Bool) (p L t : Nat) (d : Nat × Nat × Int) (m : Nat → Nat → Nat → Nat → Option R) : Prop :=
  d.1 < p ∧ d.2.1 < p * (1 + L) ∧ ∃ v, m t (d.2.1 / p) d.1 (d.2.1 % p) = some v ∧ exceeds v = true ∧ d.2.2 = if split then sign v else 0

open Classical in
theorem count_directions {R : Type} (exceeds : R → Bool) (sign : R → Int) (split : Bool) (p L : Nat) (samples : List (Nat → Nat → Nat → Nat → Option R))
    (t : Nat) (d : Nat × Nat × Int) : @List.count _ instBEqOfDecidableEq d (samples.flatMap fun m => directions exceeds sign split p L m t) =
      samples.countP fun m => decide (Has exceeds sign split p L t d m) := by
  induction samples with
  | nil => rfl
  | cons m samples ih =>
    rw [List.flatMap_cons, @List.count_append _ instBEqOfDecidableEq, ih, List.countP_cons, @List.Nodup.count _ instBEqOfDecidableEq _ d _ (directions_nodup exceeds sign split p L m t), Nat.add_comm]
    congr 1
    have : _ ↔ Has exceeds sign split p L t d m := mem_directions exceeds sign split p L m t d
    simp only [decide_eq_true_eq]
    by_cases h : d ∈ directions exceeds sign split p L m t
    · rw [if_pos h, if_pos (this.1 h)]
    · rw [if_neg h, if_neg fun h' => h (this.2 h')]

open Classical in
/-- **C144** `LongitudinalBootstrapResult.get_causal_direction_counts`, for each time point: the reported directions are distinct; each comes with
the number of samples that have it at this time (a missing value, NaN, never counts); counts do not increase; a direction of some sample is left out
only if `n_directions` at least as frequent ones are reported. In particular nothing is reported at a time without values (time 0). -/
theorem C144_direction_counts {R : Type} (exceeds : R → Bool) (sign : R → Int) (split : Bool) (p L : Nat)
    (sortDesc : List ((Nat × Nat × Int) × Nat) → List ((Nat × Nat × Int) × Nat))
    (hperm : ∀ l, (sortDesc l).Perm l) (hdesc : ∀ l, (sortDesc l).Pairwise fun a b => b.2 ≤ a.2) (nDirections : Option Nat)
    (samples : List (Nat → Nat → Nat → Nat → Option R)) (t : Nat) :
    let C := directionCounts exceeds sign split p L sortDesc nDirections samples t
    (C.map Prod.fst).Nodup ∧ C.Pairwise (fun a b => b.2 ≤ a.2) ∧
    (∀ r ∈ C, 0 < r.2 ∧ r.2 = samples.countP fun m => decide (Has exceeds sign split p L t r.1 m)) ∧
    (∀ k, nDirections = some k → C.length ≤ k) ∧
    (∀ d, (∃ m ∈ samples, Has exceeds sign split p L t d m) → d ∈ C.map Prod.fst ∨
      ∃ k, nDirections = some k ∧ C.length = k ∧ ∀ r ∈ C, (samples.countP fun m => decide (Has exceeds sign split p L t d m)) ≤ r.2) ∧
    ((∀ m ∈ samples, ∀ tau i j, m t tau i j = none) → C = []) := by
  intro C
  set dirs := samples.flatMap fun m => directions exceeds sign split p L m t with hd
  have hmem : ∀ d, d ∈ dirs ↔ ∃ m ∈ samples, Has exceeds sign split p L t d m := by
    intro d
    rw [hd, List.mem_flatMap]
    exact exists_congr fun m => and_congr_right fun _ => mem_directions exceeds sign split p L m t d
  have hlast : (∀ m ∈ samples, ∀ tau i j, m t tau i j = none) → C = [] := by
    intro h
    have : dirs = [] := List.eq_nil_iff_forall_not_mem.2 fun d hd => by
      obtain ⟨m, hm, -, -, v, hv, -⟩ := (hmem d).1 hd
      rw [h m hm] at hv
      cases hv
    show directionCounts exceeds sign split p L sortDesc nDirections samples t = []
    unfold directionCounts
    simp only [← hd, this, List.length_nil, if_true]
  by_cases h0 : dirs.length = 0
  · have hC : C = [] := by
      show directionCounts exceeds sign split p L sortDesc nDirections samples t = []
      unfold directionCounts
      simp only [← hd, h0, if_true]
    rw [hC]
    refine ⟨by simp, by simp, by simp, by simp, fun d hdm => ?_, fun _ => rfl⟩
    have := (hmem d).2 hdm
    rw [List.length_eq_zero_iff.1 h0] at this
    simp at this
  · have hC : C = nDirections.elim (sortDesc (Lingam.uniqueCounts dirs)) fun k => (sortDesc (Lingam.uniqueCounts dirs)).take k := by
      show directionCounts exceeds sign split p L sortDesc nDirections samples t = _
      unfold directionCounts
      simp only [← hd, h0, if_false]
    obtain ⟨g1, g2, g3, g4, -, g6⟩ := Lingam.top_spec sortDesc hperm hdesc nDirections dirs
    rw [← hC] at g1 g2 g3 g4 g6
    refine ⟨g1, g2, fun r hr => ?_, g4, fun d hdm => ?_, hlast⟩
    · have := g3 r hr
      refine ⟨?_, ?_⟩
      · rw [this.2]; exact (@List.count_pos_iff _ instBEqOfDecidableEq _ _ _).2 this.1
      · rw [this.2, ← count_directions, ← hd]
    · have h := g6 d ((hmem d).2 hdm)
      rcases h with h | ⟨k, hk, hl, hr⟩
      · exact Or.inl (List.mem_map.2 ⟨_, h, rfl⟩)
      · refine Or.inr ⟨k, hk, hl, fun r hr' => ?_⟩
        rw [← count_directions, ← hd]
        exact hr r hr'

/-- **C144** `get_probabilities`: the numerator of a cell is the number of samples whose value there is a number above the threshold. -/
theorem C144_probabilities {R : Type} (exceeds : R → Bool) (samples : List (Nat → Nat → Nat → Nat → Option R)) (t tau i j : Nat) :
    probCount exceeds samples t tau i j = samples.countP fun m => match m t tau i j with | some v => exceeds v | none => false := by
  unfold probCount
  suffices H : ∀ a, samples.foldl (fun a m => a + if (m t tau i j).any exceeds then 1 else 0) a =
      a + samples.countP fun m => match m t tau i j with | some v => exceeds v | none => false by
    rw [H, Nat.zero_add]
  induction samples with
  | nil => intro a; rfl
  | cons m samples ih =>
    intro a
    rw [List.foldl_cons, ih, List.countP_cons]
    cases m t tau i j with
    | none => simp
    | some v => simp only [Option.any_some]; omega

/-- two variables, three time points, starting at time 1 -/
example : (fun m : Nat → Nat → Nat => [m 3 2, m 2 3, m 4 2, m 5 3, m 2 0]) (totalEffects 0 3 2 1 (fun t => if t = 1 then [0, 1] else [1, 0])
    fun ft f tt t => 1000 * ft + 100 * f + 10 * tt + t) = [1011, 0, 1020, 1121, 0] := by decide

example : directionCounts (R := Int) (fun x => decide (x ≠ 0)) Int.sign true 2 1 (List.insertionSort fun a b => b.2 ≤ a.2) none
    [fun t tau i j => if t = 0 then none else some (if tau = 1 ∧ i = 0 ∧ j = 1 then -2 else 0),
     fun t tau i j => if t = 0 then none else some (if tau = 1 ∧ i = 0 then -3 else 0)] 1 = [((0, 3, -1), 2), ((0, 2, -1), 1)] := by decide

/-! ## C195 -/

/-- two samples have the same graph at time `t` -/
def SameAt {R : Type} (exceeds : R → Bool) (sign : R → Int) (split : Bool) (p L t : Nat) (a b : Nat → Nat → Nat → Nat → Option R) : Prop :=
  ∀ d, Has exceeds sign split p L t d a ↔ Has exceeds sign split p L t d b

theorem directions_eq_iff {R : Type} (exceeds : R → Bool) (sign : R → Int) (split : Bool) (p L t : Nat) (a b : Nat → Nat → Nat → Nat → Option R) :
    directions exceeds sign split p L a t = directions exceeds sign split p L b t ↔ SameAt exceeds sign split p L t a b := by
  constructor
  · intro h d
    rw [Has, Has, ← mem_directions exceeds sign split p L a t d, ← mem_directions exceeds sign split p L b t d, h]
  · intro h
    have key : ∀ c ∈ ((List.range p).flatMap fun i => (List.range (p * (1 + L))).map fun c => (i, c)), c.1 < p ∧ c.2 < p * (1 + L) := by
      intro c hc
      simp only [List.mem_flatMap, List.mem_map, List.mem_range] at hc
      obtain ⟨i, hi, j, hj, rfl⟩ := hc
      exact ⟨hi, hj⟩
    have one : ∀ (a b : Nat → Nat → Nat → Nat → Option R), SameAt exceeds sign split p L t a b → ∀ c : Nat × Nat, c.1 < p → c.2 < p * (1 + L) →
        (rowOf p a t c.1 c.2).any exceeds = true → (rowOf p b t c.1 c.2).any exceeds = true ∧
        (if split then ((rowOf p a t c.1 c.2).map sign).getD 0 else 0) = if split then ((rowOf p b t c.1 c.2).map sign).getD 0 else 0 := by
      intro a b h c h1 h2 h3
      obtain ⟨v, hv, hv'⟩ := (Option.any_eq_true _ _).1 h3
      obtain ⟨-, -, w, hw, hw', e⟩ := (h (c.1, c.2, if split then sign v else 0)).1 ⟨h1, h2, v, hv, hv', rfl⟩
      have hw2 : rowOf p b t c.1 c.2 = some w := hw
      rw [hv, hw2]
      exact ⟨by simpa using hw', e⟩
    unfold directions
    have hf : ∀ c ∈ ((List.range p).flatMap fun i => (List.range (p * (1 + L))).map fun c => (i, c)),
        (rowOf p a t c.1 c.2).any exceeds = (rowOf p b t c.1 c.2).any exceeds := by
      intro c hc
      obtain ⟨h1, h2⟩ := key c hc
      rw [Bool.eq_iff_iff]
      exact ⟨fun h3 => (one a b h c h1 h2 h3).1, fun h3 => (one b a (fun d => (h d).symm) c h1 h2 h3).1⟩
    rw [List.filter_congr hf]
    refine List.map_congr_left fun c hc => ?_
    rw [List.mem_filter] at hc
    obtain ⟨h1, h2⟩ := key c hc.1
    rw [(one b a (fun d => (h d).symm) c h1 h2 hc.2).2]

open Classical in
/-- **C195** `LongitudinalBootstrapResult.get_directed_acyclic_graph_counts`: one entry for each time point, and at each time `t`: the reported
graphs are pairwise different; each is the graph at time `t` of some sample, lists each of its directions once, and comes with the number
of samples that have this graph at time `t`; the counts do not increase; without `n_dags` they add up to the number of samples; a graph of a sample
is missing only if `n_dags` graphs at least as frequent are reported. -/
theorem C195_dag_counts {R : Type} (exceeds : R → Bool) (sign : R → Int) (split : Bool) (p L T : Nat)
    (sortDesc : List (List (Nat × Nat × Int) × Nat) → List (List (Nat × Nat × Int) × Nat))
    (hperm : ∀ l, (sortDesc l).Perm l) (hdesc : ∀ l, (sortDesc l).Pairwise fun a b => b.2 ≤ a.2)
    (nDags : Option Nat) (samples : List (Nat → Nat → Nat → Nat → Option R)) :
    let out := dagCountsList exceeds sign split p L T sortDesc nDags samples
    out.length = T ∧ ∀ t C, out[t]? = some C →
    (C.map Prod.fst).Nodup ∧ C.Pairwise (fun a b => b.2 ≤ a.2) ∧
    (∀ g c, (g, c) ∈ C → ∃ m ∈ samples, (g.Nodup ∧ ∀ d, d ∈ g ↔ Has exceeds sign split p L t d m) ∧
      c = samples.countP fun m' => decide (SameAt exceeds sign split p L t m' m)) ∧
    (∀ k, nDags = some k → C.length ≤ k) ∧ (nDags = none → (C.map Prod.snd).sum = samples.length) ∧
    (∀ m ∈ samples, (∃ g c, (g, c) ∈ C ∧ ∀ d, d ∈ g ↔ Has exceeds sign split p L t d m) ∨
      (∃ k, nDags = some k ∧ C.length = k ∧
        ∀ r ∈ C, (samples.countP fun m' => decide (SameAt exceeds sign split p L t m' m)) ≤ r.2)) := by
  intro out
  refine ⟨by simp [out, dagCountsList], fun t C hC => ?_⟩
  have hC' : C = dagCounts exceeds sign split p L sortDesc nDags samples t := by
    simp only [out, dagCountsList, List.getElem?_map, Option.map_eq_some_iff] at hC
    obtain ⟨t', ht', rfl⟩ := hC
    rw [List.getElem?_eq_some_iff] at ht'
    obtain ⟨ht1, ht2⟩ := ht'
    rw [List.getElem_range] at ht2
    rw [ht2]
  rw [hC']
  have hc : ∀ m : Nat → Nat → Nat → Nat → Option R, @List.count _ instBEqOfDecidableEq (directions exceeds sign split p L m t)
      (samples.map fun m => directions exceeds sign split p L m t) =
      samples.countP fun m' => decide (SameAt exceeds sign split p L t m' m) := by
    intro m
    rw [Lingam.count_map_eq]
    refine List.countP_congr fun m' _ => ?_
    simp only [decide_eq_true_eq]
    exact directions_eq_iff exceeds sign split p L t m' m
  have hl : ∀ m : Nat → Nat → Nat → Nat → Option R, ∀ d, d ∈ directions exceeds sign split p L m t ↔ Has exceeds sign split p L t d m :=
    fun m d => mem_directions exceeds sign split p L m t d
  obtain ⟨h1, h2, h3, h4, h5, h6⟩ := Lingam.top_spec sortDesc hperm hdesc nDags (samples.map fun m => directions exceeds sign split p L m t)
  refine ⟨h1, h2, ?_, h4, ?_, ?_⟩
  · intro g c hg
    obtain ⟨hm, hcnt⟩ := h3 _ hg
    rw [List.mem_map] at hm
    obtain ⟨m, hm', rfl⟩ := hm
    exact ⟨m, hm', ⟨directions_nodup exceeds sign split p L m t, hl m⟩, by rw [← hc]; exact hcnt⟩
  · intro hn
    exact (h5 hn).trans (List.length_map _)
  · intro m hm
    rcases h6 _ (List.mem_map_of_mem hm) with h | ⟨k, hk, hl', hr⟩
    · exact Or.inl ⟨_, _, h, hl m⟩
    · exact Or.inr ⟨k, hk, hl', fun r hr' => by rw [← hc]; exact hr r hr'⟩

/-- **C195** `get_total_causal_effects` after a bootstrap: rows are numbered `time · p + variable`. A reported effect never goes backwards in
time, never starts before the first usable time point, and within one time point it follows the causal order of some sample at this time; its
probability is the fraction of the samples whose estimated effect exceeds the threshold, rows come by non-increasing probability. -/
theorem C195_effects_forward (T p start : Nat) (minEffect : Option ℚ)
    (sortDesc : List ((Nat × Nat) × ℚ × ℚ) → List ((Nat × Nat) × ℚ × ℚ))
    (hperm : ∀ l, (sortDesc l).Perm l) (hdesc : ∀ l, (sortDesc l).Pairwise fun a b => b.2.2 ≤ a.2.2)
    (boot : List ((Nat → List Nat) × (Nat → Nat → Nat → Nat → ℚ)))
    (ho : ∀ s ∈ boot, ∀ t, start ≤ t → (s.1 t).Perm (List.range p))
    (rows : List ((Nat × Nat) × ℚ × ℚ))
    (h : totalCausalEffects T p minEffect sortDesc (boot.map fun s => totalEffects 0 T p start s.1 s.2) = some rows) :
    rows.Pairwise (fun a b => b.2.2 ≤ a.2.2) ∧
    ∀ tt ti ft fi e q, ti < p → fi < p → ((tt * p + ti, ft * p + fi), e, q) ∈ rows →
      start ≤ ft ∧ ft ≤ tt ∧ tt < T ∧ 0 < q ∧ q ≤ 1 ∧
      (ft = tt → ∃ s ∈ boot, [fi, ti].Sublist (s.1 ft)) ∧
      q = ((boot.countP fun s => decide (minEffect.getD 0 < |totalEffects 0 T p start s.1 s.2 (tt * p + ti) (ft * p + fi)|) : Nat) : ℚ) / (boot.length : ℚ) := by
  classical
  have h0 : 0 ≤ minEffect.getD 0 := by
    cases minEffect with
    | none => exact le_refl _
    | some x =>
      by_contra hx
      have : Lingam.checkMin (some x) = none := if_neg fun h' => hx (le_of_lt h')
      rw [totalCausalEffects, Lingam.totalCausalEffects, this] at h
      cases h
  obtain ⟨-, g2, g3, g4⟩ := Lingam.C137_total_effects_partial (T * p) minEffect sortDesc hperm hdesc _ rows h
  refine ⟨g2, fun tt ti ft fi e q hti hfi hr => ?_⟩
  obtain ⟨b1, b2, hq, hq0, hq1, -⟩ := g3 _ _ _ _ hr
  obtain ⟨m, hm, hex⟩ := (g4 _ _ b1 b2).1 ⟨e, q, hr⟩
  obtain ⟨s, hs, rfl⟩ := List.mem_map.1 hm
  have htt : tt < T := by
    by_contra hc
    have : T * p ≤ tt * p := Nat.mul_le_mul_right p (by omega)
    omega
  have hft : ft < T := by
    by_contra hc
    have : T * p ≤ ft * p := Nat.mul_le_mul_right p (by omega)
    omega
  rw [C144_total_effects 0 T p start s.1 (ho s hs) s.2 tt ti ft fi htt hti hft hfi] at hex
  split at hex
  · next hcond =>
    refine ⟨hcond.1, ?_, htt, hq0, hq1, ?_, ?_⟩
    · rcases hcond.2 with h' | h' <;> omega
    · intro heq
      rcases hcond.2 with h' | h'
      · exact ⟨s, hs, h'.2⟩
      · omega
    · rw [hq, Lingam.exceeding, List.length_map, ← List.countP_eq_length_filter, List.countP_map, List.length_map]
      rfl
  · rw [abs_zero] at hex
    exact absurd hex (not_lt.2 h0)

/-- three samples, two time points of which the first is unusable -/
example : dagCountsList (R := Int) (fun x => decide (x ≠ 0)) Int.sign true 2 1 2 (List.insertionSort fun a b => b.2 ≤ a.2) none
    [fun t tau i j => if t = 0 then none else some (if tau = 1 ∧ i = 0 ∧ j = 1 then -2 else 0),
     fun t tau i j => if t = 0 then none else some (if tau = 1 ∧ i = 0 ∧ j = 1 then 2 else 0),
     fun t tau i j => if t = 0 then none else some (if tau = 1 ∧ i = 0 ∧ j = 1 then -7 else 0)] =
    [[([], 3)], [([(0, 3, -1)], 2), ([(0, 3, 1)], 1)]] := by decide

/-- one sample of two variables at two time points -/
example : (totalCausalEffects 2 2 (none : Option ℚ) (fun l => l)
    ([((fun _ => [0, 1]), fun ft f tt t => if (ft, f, tt, t) = (0, 1, 1, 0) then -4 else if (ft, f, tt, t) = (0, 0, 0, 1) then 2 else 0)].map
      fun s => totalEffects 0 2 2 0 s.1 s.2)).map (fun l => l.map Prod.fst) = some [(1, 0), (2, 1)] := by decide +kernel

end LB
end CL
