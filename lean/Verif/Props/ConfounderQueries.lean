import Verif.Model.ConfounderQueries
import Verif.Props.TotalEffect
import Verif.Props.Parce
import Verif.Props.Rcd

/-!
# C158–C161: queries on models with hidden confounders, on several groups and on panels
-/
namespace CL.Conf
open Lingam

/-! ## Matrices filled by pairs -/

theorem pairs_mem {n : Nat} (a b : Fin n) :
    (a, b) ∈ ((List.finRange n).flatMap fun i => ((List.finRange n).filter fun j => i < j).map fun j => (i, j)) ↔ a < b := by
  simp only [List.mem_flatMap, List.mem_map, List.mem_filter, List.mem_finRange, true_and, decide_eq_true_eq, Prod.mk.injEq]
  constructor
  · rintro ⟨i, j, hij, rfl, rfl⟩; exact hij
  · intro h; exact ⟨a, b, h, rfl, rfl⟩

theorem pairs_fold {V : Type} {n : Nat} (h : Fin n → Fin n → V) (ps : List (Fin n × Fin n)) (hps : ∀ p ∈ ps, p.1 < p.2) (m : Fin n → Fin n → V) (a b : Fin n) :
    (ps.foldl (fun m p => fun a b => if (a = p.1 ∧ b = p.2) ∨ (a = p.2 ∧ b = p.1) then h p.1 p.2 else m a b) m) a b =
      if (a, b) ∈ ps then h a b else if (b, a) ∈ ps then h b a else m a b := by
  induction ps generalizing m with
  | nil => simp
  | cons p ps ih =>
    obtain ⟨i, j⟩ := p
    have hij : i < j := hps (i, j) (by simp)
    rw [List.foldl_cons, ih (fun q hq => hps q (by simp [hq]))]
    have hlt : ∀ x y, (x, y) ∈ ps → x < y := fun x y hxy => hps (x, y) (by simp [hxy])
    simp only [List.mem_cons, Prod.mk.injEq]
    by_cases h1 : (a, b) ∈ ps
    · simp [h1]
    by_cases h2 : (b, a) ∈ ps
    · have : ¬ (a = i ∧ b = j) := by rintro ⟨rfl, rfl⟩; exact absurd (hlt _ _ h2) (not_lt_of_gt hij)
      simp [h1, h2, this]
    by_cases h3 : a = i ∧ b = j
    · obtain ⟨rfl, rfl⟩ := h3
      simp [h1, h2]
    by_cases h4 : a = j ∧ b = i
    · obtain ⟨rfl, rfl⟩ := h4
      have : ¬ (a = b ∧ b = a) := by rintro ⟨rfl, _⟩; exact lt_irrefl _ hij
      simp [h1, h2, this]
    · have h5 : ¬ (b = i ∧ a = j) := fun h => h4 ⟨h.2, h.1⟩
      simp [h1, h2, h3, h4, h5]

variable {K : Type} [Field K] [LinearOrder K]

/-! ## C158: the p-values of the errors in the presence of NaN -/

/-- Specification: the variable occurs in a NaN entry. -/
def Touched {n : Nat} (B : Fin n → Fin n → Option K) (a : Fin n) : Prop := ∃ c, B a c = none ∨ B c a = none

omit [Field K] [LinearOrder K] in
theorem mem_nanCols {n : Nat} (B : Fin n → Fin n → Option K) (a : Fin n) : a ∈ nanCols B ↔ Touched B a := by
  simp only [nanCols, List.mem_flatMap, List.mem_finRange, List.mem_filter, true_and, Option.isNone_iff_eq_none, List.mem_cons, List.not_mem_nil, or_false, Touched]
  constructor
  · rintro ⟨i, j, h, rfl | rfl⟩
    · exact ⟨j, .inl h⟩
    · exact ⟨i, .inr h⟩
  · rintro ⟨c, h | h⟩
    · exact ⟨a, c, h, .inl rfl⟩
    · exact ⟨c, a, h, .inr rfl⟩

omit [LinearOrder K] in
theorem errorsNan_real {N n : Nat} (B : Fin n → Fin n → Option K) (X : Fin N → Fin n → K) (k : Fin N) (i : Fin n) (B' : Fin n → Fin n → K)
    (h : ∀ j, B i j = some (B' i j)) : errorsNan B X k i = some (X k i - ∑ j, B' i j * X k j) := by
  have key : ∀ (l : List (Fin n)) (s : K), l.foldl (fun s j => addN s (mulN (B i j) (X k j))) (some s) = some (s + (l.map fun j => B' i j * X k j).sum) := by
    intro l
    induction l with
    | nil => intro s; simp
    | cons j l ih =>
      intro s
      rw [List.foldl_cons, show addN (some s) (mulN (B i j) (X k j)) = some (s + B' i j * X k j) by rw [h j]; rfl, ih]
      simp [add_assoc]
  unfold errorsNan
  rw [key, ← List.sum_ofFn, List.ofFn_eq_map]
  simp [subN]

omit [LinearOrder K] in
/-- **C158** `get_error_independence_p_values` of BottomUpParceLiNGAM and RCD: the matrix is symmetric with zeros on the diagonal; the entry of two variables is NaN if one of them
occurs in a NaN entry of the adjacency matrix; otherwise it is the p-value of the test of their real-valued errors (data minus the model's prediction), and NaN only if the test says so. -/
theorem C158_p_values {N n : Nat} (hsic : (Fin N → Option K) → (Fin N → Option K) → Option K) (B : Fin n → Fin n → Option K) (X : Fin N → Fin n → K) :
    (∀ a b, errorPValuesNan hsic B X a b = errorPValuesNan hsic B X b a) ∧ (∀ a, errorPValuesNan hsic B X a a = some 0) ∧
    (∀ a b, a ≠ b → Touched B a ∨ Touched B b → errorPValuesNan hsic B X a b = none) ∧
    (∀ a b, a < b → ¬ Touched B a → ¬ Touched B b → ∀ B' : Fin n → Fin n → K, (∀ i j x, B i j = some x → B' i j = x) →
      errorPValuesNan hsic B X a b = hsic (fun k => some (X k a - ∑ j, B' a j * X k j)) (fun k => some (X k b - ∑ j, B' b j * X k j))) := by
  have hval : ∀ a b, errorPValuesNan hsic B X a b =
      if a < b then pValueNan hsic B X a b else if b < a then pValueNan hsic B X b a else some 0 := by
    intro a b
    unfold errorPValuesNan
    rw [pairs_fold (fun i j => pValueNan hsic B X i j) _ (fun p hp => (pairs_mem p.1 p.2).1 hp)]
    simp only [pairs_mem]
  refine ⟨fun a b => ?_, fun a => ?_, fun a b hne h => ?_, fun a b h ha hb B' hB' => ?_⟩
  · rw [hval, hval]
    rcases lt_trichotomy a b with h | rfl | h
    · rw [if_pos h, if_neg (not_lt_of_gt h), if_pos h]
    · rfl
    · rw [if_neg (not_lt_of_gt h), if_pos h, if_pos h]
  · rw [hval]; simp
  · rw [hval]
    rcases lt_or_gt_of_ne hne with hlt | hlt
    · rw [if_pos hlt]; unfold pValueNan; rw [if_pos]; simpa only [mem_nanCols] using h
    · rw [if_neg (not_lt_of_gt hlt), if_pos hlt]; unfold pValueNan; rw [if_pos]; simpa only [mem_nanCols] using h.symm
  · have key : ∀ i, ¬ Touched B i → ∀ j, B i j = some (B' i j) := by
      intro i hi j
      cases hx : B i j with
      | none => exact absurd ⟨j, .inl hx⟩ hi
      | some x => rw [hB' i j x hx]
    rw [hval, if_pos h]
    unfold pValueNan
    rw [if_neg (by simp only [mem_nanCols, not_or]; exact ⟨ha, hb⟩)]
    congr 1 <;> funext k
    · exact errorsNan_real B X k a B' (key a ha)
    · exact errorsNan_real B X k b B' (key b hb)

/-! ## C159: total effects -/

section effect
variable [IsStrictOrderedRing K]

theorem effectNan_spec (n : Nat) (B : Nat → Nat → Option K) (regress : List Nat → Nat → List K) (f t : Nat)
    (hreg : ∀ ps, (regress ps t).length = ps.length) :
    (effectNan n B regress f t = none ↔ ∃ j < n, B f j = none) ∧
    ((∀ j < n, B f j ≠ none) → ∀ B' : Nat → Nat → K, (∀ i j x, B i j = some x → B' i j = x) →
      effectNan n B regress f t = (regress (f :: (List.range n).filter fun p => decide (B' f p ≠ 0)) t).head?) := by
  have hany : ((List.range n).any fun j => (B f j).isNone) = true ↔ ∃ j < n, B f j = none := by
    simp [List.any_eq_true, Option.isNone_iff_eq_none]
  refine ⟨?_, fun h B' hB' => ?_⟩
  · unfold effectNan
    by_cases h : ∃ j < n, B f j = none
    · rw [if_pos (hany.2 h)]; simp [h]
    · rw [if_neg (fun hc => h (hany.1 hc))]
      simp only [h, iff_false]
      intro hc
      rw [List.head?_eq_none_iff] at hc
      have := hreg (f :: (List.range n).filter fun p => (B f p).any fun x => decide (0 < |x|))
      rw [hc] at this
      simp at this
  · unfold effectNan
    rw [if_neg (fun hc => by obtain ⟨j, hj, h'⟩ := hany.1 hc; exact h j hj h')]
    have : ((List.range n).filter fun p => (B f p).any fun x => decide (0 < |x|)) = (List.range n).filter fun p => decide (B' f p ≠ 0) := by
      refine List.filter_congr fun p hp => ?_
      cases hx : B f p with
      | none => exact absurd hx (h p (List.mem_range.1 hp))
      | some x => rw [hB' f p x hx]; simp
    rw [this]

/-- **C159** BottomUpParceLiNGAM: on a fitted object `estimate_total_effect` never raises for variables of the data. It is NaN exactly for a source in
the block of unknown order, whatever the destination; for any other source it is the coefficient of the source in the regression of the destination on the source and the variables with a non-zero
coefficient in the row of the source. -/
theorem C159_parce {P Q : Type} [LinearOrder P] [Add P] [LinearOrder Q] (D : Parce.Data P Q) (coef : Nat → List Nat → Nat → K) {n : Nat} (hn : 2 ≤ n) (o : Parce.Obj)
    (regress : List Nat → Nat → List K) (hreg : ∀ ps t, (regress ps t).length = ps.length) :
    ∃ (r : Parce.Fitted Q K) (unk bot : List Nat), Parce.fit D coef n o = some r ∧
      r.order = (if unk = [] then [] else [.unknown unk]) ++ bot.map .var ∧ (unk ++ bot).Perm (List.range n) ∧
      ∀ f t, f < n → t < n → ∃ v, parceEffect n r.order r.B regress f t = some v ∧ (v = none ↔ f ∈ unk) ∧
        (f ∈ bot → ∀ B' : Nat → Nat → K, (∀ i j x, r.B i j = some x → B' i j = x) → v = (regress (f :: (List.range n).filter fun p => decide (B' f p ≠ 0)) t).head?) := by
  obtain ⟨r, unk, bot, hr, hord, hperm, hone, hnan, -⟩ := Parce.C89_fit D coef hn o
  refine ⟨r, unk, bot, hr, hord, hperm, fun f t hf ht => ⟨effectNan n r.B regress f t, ?_, ?_, ?_⟩⟩
  · have key : ∀ v < n, ∃ k, positionIn r.order v = some k := by
      intro v hv
      have hmem : v ∈ unk ++ bot := hperm.mem_iff.2 (List.mem_range.2 hv)
      unfold positionIn
      refine Option.isSome_iff_exists.1 ?_
      rw [List.findIdx?_isSome, List.any_eq_true, hord]
      rcases List.mem_append.1 hmem with h | h
      · refine ⟨.unknown unk, ?_, decide_eq_true h⟩
        rw [if_neg (List.ne_nil_of_mem h)]; simp
      · exact ⟨.var v, by simp [h], by simp [Parce.Item.vars]⟩
    obtain ⟨k1, h1⟩ := key f hf
    obtain ⟨k2, h2⟩ := key t ht
    unfold parceEffect
    rw [h1, h2]; rfl
  · rw [(effectNan_spec n r.B regress f t (fun ps => hreg ps t)).1]
    constructor
    · rintro ⟨j, -, h⟩; exact ((hnan f j).1 h).2.1
    · intro h
      have hnd : unk.Nodup := (hperm.nodup_iff.2 List.nodup_range).of_append_left
      obtain ⟨j, hj, hne⟩ : ∃ j ∈ unk, j ≠ f := by
        by_contra hc
        push Not at hc
        have hsub : unk.length ≤ [f].length := (List.subperm_of_subset hnd (fun x hx => by simp [hc x hx])).length_le
        have : 0 < unk.length := List.length_pos_of_mem h
        simp at hsub; omega
      exact ⟨j, List.mem_range.1 (hperm.mem_iff.1 (List.mem_append_left _ hj)), (hnan f j).2 ⟨fun h => hne h.symm, h, hj⟩⟩
  · intro hb B' hB'
    refine (effectNan_spec n r.B regress f t (fun ps => hreg ps t)).2 (fun j hj hc => ?_) B' hB'
    have hfu := ((hnan f j).1 hc).2.1
    have hnd : (unk ++ bot).Nodup := hperm.nodup_iff.2 List.nodup_range
    exact (List.nodup_append.1 hnd).2.2 f hfu f hb rfl
end effect

/-- `rcd.py:334-374`: the matrix of RCD as numbers; `coef` are the regression coefficients (see `Rcd.entry`). -/
def rcdMatrix {n : Nat} (B : Fin n → Fin n → Rcd.Entry) (coef : Nat → Nat → K) (i j : Nat) : Option K :=
  if h : i < n ∧ j < n then (match B ⟨i, h.1⟩ ⟨j, h.2⟩ with
    | .zero => some 0
    | .coef => some (coef i j)
    | .nan => none) else some 0

/-- **C159** RCD: `estimate_total_effect` is NaN exactly if the source shares a hidden confounder with some variable (by the tests of the fit), whatever the destination; otherwise
it is the coefficient of the source in the regression of the destination on the source and its parents (those with a non-zero coefficient). -/
theorem C159_rcd {n : Nat} (B : Fin n → Fin n → Rcd.Entry) (coef : Nat → Nat → K) [IsStrictOrderedRing K]
    (regress : List Nat → Nat → List K) (hreg : ∀ ps t, (regress ps t).length = ps.length) (f t : Fin n) :
    (effectNan n (rcdMatrix B coef) regress f t = none ↔ ∃ j, B f j = .nan) ∧
    ((∀ j, B f j ≠ .nan) → effectNan n (rcdMatrix B coef) regress f t =
      (regress ((f : Nat) :: (List.range n).filter fun p => decide (∃ j : Fin n, (j : Nat) = p ∧ B f j = .coef ∧ coef f p ≠ 0)) t).head?) := by
  have hm : ∀ j : Fin n, rcdMatrix B coef f j = none ↔ B f j = .nan := by
    intro j
    unfold rcdMatrix
    rw [dif_pos ⟨f.2, j.2⟩]
    show (match B f j with | .zero => some 0 | .coef => some (coef f j) | .nan => none) = none ↔ _
    cases B f j <;> simp
  obtain ⟨h1, h2⟩ := effectNan_spec n (rcdMatrix B coef) regress f t (fun ps => hreg ps t)
  refine ⟨?_, fun h => ?_⟩
  · rw [h1]
    constructor
    · rintro ⟨j, hj, h⟩; exact ⟨⟨j, hj⟩, (hm ⟨j, hj⟩).1 h⟩
    · rintro ⟨j, h⟩; exact ⟨j, j.2, (hm j).2 h⟩
  · rw [h2 (fun j hj hc => h ⟨j, hj⟩ ((hm ⟨j, hj⟩).1 hc)) (fun i j => (rcdMatrix B coef i j).getD 0) (fun i j x hx => by rw [hx]; rfl)]
    have : ((List.range n).filter fun p => decide ((rcdMatrix B coef f p).getD 0 ≠ 0)) =
        (List.range n).filter fun p => decide (∃ j : Fin n, (j : Nat) = p ∧ B f j = .coef ∧ coef f p ≠ 0) := by
      refine List.filter_congr fun p hp => ?_
      rw [decide_eq_decide]
      have hp' := List.mem_range.1 hp
      have e : rcdMatrix B coef f p = (match B f ⟨p, hp'⟩ with | .zero => some 0 | .coef => some (coef f p) | .nan => none) := by
        unfold rcdMatrix; rw [dif_pos ⟨f.2, hp'⟩]
      have e2 : (∃ j : Fin n, (j : Nat) = p ∧ B f j = .coef ∧ coef f p ≠ 0) ↔ B f ⟨p, hp'⟩ = .coef ∧ coef f p ≠ 0 := by
        constructor
        · rintro ⟨j, rfl, h⟩; exact h
        · intro h; exact ⟨⟨p, hp'⟩, rfl, h⟩
      rw [e, e2]
      cases B f ⟨p, hp'⟩ <;> simp
    rw [this]

/-! ## C160: the matrices of a bootstrap -/

/-- Specification: `b` belongs to an earlier element of the order than `a`. -/
def Earlier (order : List Parce.Item) (b a : Nat) : Prop := ∃ l1 i l2 j l3, order = l1 ++ i :: (l2 ++ j :: l3) ∧ b ∈ i.vars ∧ a ∈ j.vars

theorem earlier_cons (i : Parce.Item) (l : List Parce.Item) (b a : Nat) :
    Earlier (i :: l) b a ↔ (b ∈ i.vars ∧ ∃ j ∈ l, a ∈ j.vars) ∨ Earlier l b a := by
  constructor
  · rintro ⟨l1, i', l2, j, l3, h, hb, ha⟩
    cases l1 with
    | nil =>
      simp only [List.nil_append, List.cons.injEq] at h
      obtain ⟨rfl, rfl⟩ := h
      exact .inl ⟨hb, j, by simp, ha⟩
    | cons c l1 =>
      simp only [List.cons_append, List.cons.injEq] at h
      exact .inr ⟨l1, i', l2, j, l3, h.2, hb, ha⟩
  · rintro (⟨hb, j, hj, ha⟩ | ⟨l1, i', l2, j, l3, h, hb, ha⟩)
    · obtain ⟨l2, l3, rfl⟩ := List.append_of_mem hj
      exact ⟨[], i, l2, j, l3, rfl, hb, ha⟩
    · exact ⟨i :: l1, i', l2, j, l3, by rw [h]; rfl, hb, ha⟩

open Classical in
theorem block_fold {V : Type} (te : Nat → Nat → V) (t : Nat) (ss : List Nat) (m : Nat → Nat → V) (a b : Nat) :
    (ss.foldl (fun m s => fun a b => if a = t ∧ b = s then te s t else m a b) m) a b = if a = t ∧ b ∈ ss then te b a else m a b := by
  induction ss generalizing m with
  | nil => simp
  | cons s ss ih =>
    rw [List.foldl_cons, ih]
    by_cases h1 : a = t ∧ b ∈ ss
    · rw [if_pos h1, if_pos ⟨h1.1, by simp [h1.2]⟩]
    · rw [if_neg h1]
      by_cases h2 : a = t ∧ b = s
      · rw [if_pos h2, if_pos ⟨h2.1, by simp [h2.2]⟩, h2.1, h2.2]
      · rw [if_neg h2, if_neg]
        rintro ⟨h3, h4⟩
        rcases List.mem_cons.1 h4 with h5 | h5
        · exact h2 ⟨h3, h5⟩
        · exact h1 ⟨h3, h5⟩

open Classical in
theorem row_fold {V : Type} (te : Nat → Nat → V) (ss ts : List Nat) (m : Nat → Nat → V) (a b : Nat) :
    (ts.foldl (fun m t => ss.foldl (fun m s => fun a b => if a = t ∧ b = s then te s t else m a b) m) m) a b =
      if a ∈ ts ∧ b ∈ ss then te b a else m a b := by
  induction ts generalizing m with
  | nil => simp
  | cons t ts ih =>
    rw [List.foldl_cons, ih, block_fold]
    by_cases hb : b ∈ ss <;> by_cases h1 : a ∈ ts <;> by_cases h2 : a = t <;> simp [hb, h1, h2]

open Classical in
theorem parceBoot_spec {V : Type} (zero : V) (te : Nat → Nat → V) (order : List Parce.Item) (m : Nat → Nat → V) (a b : Nat) :
    parceBoot zero te order m a b = if Earlier order b a then te b a else m a b := by
  induction order generalizing m with
  | nil =>
    rw [if_neg]
    · rfl
    · rintro ⟨l1, i, l2, j, l3, h, -⟩; simp at h
  | cons f l ih =>
    rw [show parceBoot zero te (f :: l) m = parceBoot zero te l (l.foldl (fun m i => i.vars.foldl (fun m t => f.vars.foldl (fun m s => fun a b => if a = t ∧ b = s then te s t else m a b) m) m) m) from rfl, ih]
    have hl : ∀ (ls : List Parce.Item) (m : Nat → Nat → V), (ls.foldl (fun m i => i.vars.foldl (fun m t => f.vars.foldl (fun m s => fun a b => if a = t ∧ b = s then te s t else m a b) m) m) m) a b =
        if b ∈ f.vars ∧ ∃ j ∈ ls, a ∈ j.vars then te b a else m a b := by
      intro ls
      induction ls with
      | nil => intro m; simp
      | cons i ls ih2 =>
        intro m
        rw [List.foldl_cons, ih2, row_fold]
        by_cases hb : b ∈ f.vars <;> by_cases h1 : ∃ j ∈ ls, a ∈ j.vars <;> by_cases h2 : a ∈ i.vars <;> simp [hb, h1, h2]
    rw [hl, earlier_cons]
    by_cases h1 : Earlier l b a <;> by_cases h2 : b ∈ f.vars ∧ ∃ j ∈ l, a ∈ j.vars
    · rw [if_pos h1, if_pos (.inr h1)]
    · rw [if_pos h1, if_pos (.inr h1)]
    · rw [if_neg h1, if_pos h2, if_pos (.inl h2)]
    · rw [if_neg h1, if_neg h2, if_neg (by rintro (h | h); exacts [h2 h, h1 h])]

theorem earlier_fitted (unk bot : List Nat) (b a : Nat) :
    Earlier ((if unk = [] then [] else [.unknown unk]) ++ bot.map .var) b a ↔ a ∈ bot ∧ (b ∈ unk ∨ Before bot b a) := by
  have hv : ∀ l : List Nat, Earlier (l.map .var) b a ↔ Before l b a := by
    intro l
    induction l with
    | nil =>
      constructor
      · rintro ⟨l1, i, l2, j, l3, h, -⟩; simp at h
      · intro h; cases h
    | cons c l ih =>
      rw [List.map_cons, earlier_cons, ih]
      unfold Before
      rw [List.sublist_cons_iff]
      simp only [Parce.Item.vars, List.mem_singleton, List.mem_map, List.cons.injEq]
      constructor
      · rintro (⟨rfl, j, ⟨q, hq, rfl⟩, ha⟩ | h)
        · simp only [List.mem_singleton] at ha
          subst ha
          exact .inr ⟨[a], ⟨rfl, rfl⟩, List.singleton_sublist.2 hq⟩
        · exact .inl h
      · rintro (h | ⟨q, ⟨rfl, rfl⟩, h⟩)
        · exact .inr h
        · exact .inl ⟨rfl, .var a, ⟨a, List.singleton_sublist.1 h, rfl⟩, by simp⟩
  have hmem : Before bot b a → a ∈ bot := fun h => h.subset (by simp)
  by_cases hu : unk = []
  · rw [if_pos hu, List.nil_append, hv]
    constructor
    · intro h; exact ⟨hmem h, .inr h⟩
    · rintro ⟨-, h | h⟩
      · rw [hu] at h; cases h
      · exact h
  · rw [if_neg hu, List.singleton_append, earlier_cons, hv]
    constructor
    · rintro (⟨h, j, hj, ha⟩ | h)
      · obtain ⟨q, hq, rfl⟩ := List.mem_map.1 hj
        rw [Parce.Item.vars, List.mem_singleton] at ha
        subst ha
        exact ⟨hq, .inl h⟩
      · exact ⟨hmem h, .inr h⟩
    · rintro ⟨ha, h | h⟩
      · exact .inl ⟨h, .var a, List.mem_map_of_mem ha, by simp [Parce.Item.vars]⟩
      · exact .inr h

open Classical in
/-- **C160** BottomUpParceLiNGAM: the matrix of total effects of a bootstrap sample has in row `a`, column `b` the estimated total effect of `b` on `a` if `a` is not in the block of unknown order and `b` is in the
block or precedes `a`; all other entries are 0. -/
theorem C160_parce_partial {V : Type} (zero : V) (te : Nat → Nat → V) (unk bot : List Nat) (a b : Nat) :
    parceBoot zero te ((if unk = [] then [] else [.unknown unk]) ++ bot.map .var) (fun _ _ => zero) a b =
      if a ∈ bot ∧ (b ∈ unk ∨ Before bot b a) then te b a else zero := by
  rw [parceBoot_spec]
  by_cases h : a ∈ bot ∧ (b ∈ unk ∨ Before bot b a)
  · rw [if_pos h, if_pos ((earlier_fitted unk bot b a).2 h)]
  · rw [if_neg h, if_neg (fun hc => h ((earlier_fitted unk bot b a).1 hc))]

/-- **C160 is false in the block of unknown order**: for every fitted object and any two variables of the block, the bootstrap records the total effect 0, where
`estimate_total_effect` of the same object says NaN. -/
theorem C160_block_violated {P Q : Type} [LinearOrder P] [Add P] [LinearOrder Q] [IsStrictOrderedRing K] (D : Parce.Data P Q) (coef : Nat → List Nat → Nat → K) {n : Nat} (hn : 2 ≤ n) (o : Parce.Obj)
    (regress : List Nat → Nat → List K) (hreg : ∀ ps t, (regress ps t).length = ps.length) :
    ∃ (r : Parce.Fitted Q K) (unk bot : List Nat), Parce.fit D coef n o = some r ∧ r.order = (if unk = [] then [] else [.unknown unk]) ++ bot.map .var ∧
      ∀ a ∈ unk, ∀ b ∈ unk, parceEffect n r.order r.B regress b a = some none ∧
        parceBoot (some 0) (fun s t => (parceEffect n r.order r.B regress s t).getD none) r.order (fun _ _ => some 0) a b = some 0 := by
  obtain ⟨r, unk, bot, hr, hord, hperm, h⟩ := C159_parce D coef hn o regress hreg
  refine ⟨r, unk, bot, hr, hord, fun a ha b hb => ?_⟩
  have hlt : ∀ x ∈ unk, x < n := fun x hx => List.mem_range.1 (hperm.mem_iff.1 (List.mem_append_left _ hx))
  obtain ⟨v, hv, hnone, -⟩ := h b a (hlt b hb) (hlt a ha)
  have hv0 := hnone.2 hb
  subst hv0
  refine ⟨hv, ?_⟩
  conv_lhs => arg 3; rw [hord]
  rw [C160_parce_partial, if_neg]
  rintro ⟨hab, -⟩
  exact (List.nodup_append.1 (hperm.nodup_iff.2 List.nodup_range)).2.2 a ha a hab rfl

/-- **C160** RCD: row `a`, column `b` of the total effects of a sample is the estimated effect of `b` on `a` if `b` is a found ancestor of `a`, and 0 otherwise; the order in which
the ancestors are enumerated does not matter. -/
theorem C160_rcd {V : Type} {n : Nat} (M : Fin n → Finset (Fin n)) (enum : Finset (Fin n) → List (Fin n)) (henum : ∀ S x, x ∈ enum S ↔ x ∈ S)
    (zero : V) (te : Fin n → Fin n → V) (a b : Fin n) : rcdBoot M enum zero te a b = if b ∈ M a then te b a else zero := by
  have h1 : ∀ (t : Fin n) (ss : List (Fin n)) (m : Fin n → Fin n → V),
      (ss.foldl (fun m s => fun a b => if a = t ∧ b = s then te s t else m a b) m) a b = if a = t ∧ b ∈ ss then te b a else m a b := by
    intro t ss
    induction ss with
    | nil => intro m; simp
    | cons s ss ih =>
      intro m
      rw [List.foldl_cons, ih]
      by_cases h1 : a = t <;> by_cases h2 : b ∈ ss <;> by_cases h3 : b = s <;> simp [h1, h2, h3]
  have h2 : ∀ (ts : List (Fin n)) (m : Fin n → Fin n → V),
      (ts.foldl (fun m t => (enum (M t)).foldl (fun m s => fun a b => if a = t ∧ b = s then te s t else m a b) m) m) a b =
        if a ∈ ts ∧ b ∈ M a then te b a else m a b := by
    intro ts
    induction ts with
    | nil => intro m; simp
    | cons t ts ih =>
      intro m
      rw [List.foldl_cons, ih, h1]
      by_cases h1 : a = t
      · subst h1
        by_cases h2 : a ∈ ts <;> by_cases h3 : b ∈ M a <;> simp [h2, h3, henum]
      · by_cases h2 : a ∈ ts <;> by_cases h3 : b ∈ M a <;> simp [h1, h2, h3]
  unfold rcdBoot
  rw [h2]
  simp

/-- **C160 is false for the size of the samples of RCD**: `bootstrap(X, m)` draws, without replacement, `N - m` of the `N` observations (so the size of a sample depends on the number of
samples), and raises for `m ≥ N`; hence any two of its samples share at least `N - 2m` observations. -/
theorem C160_rcd_samples_violated (N m : Nat) (hm : 0 < m) :
    (m < N → rcdSampleSize N m = some (N - m) ∧ N - m < N) ∧ (N ≤ m → rcdSampleSize N m = none) ∧
    ∀ k, rcdSampleSize N m = some k → ∀ S T : Finset (Fin N), S.card = k → T.card = k → N ≤ (S ∩ T).card + 2 * m := by
  refine ⟨fun h => ⟨by unfold rcdSampleSize; rw [if_pos h], by omega⟩, fun h => by unfold rcdSampleSize; rw [if_neg (by omega)], fun k hk S T hS hT => ?_⟩
  unfold rcdSampleSize at hk
  split at hk
  · rename_i hlt
    simp only [Option.some.injEq] at hk
    have h1 := Finset.card_union_add_card_inter S T
    have h2 : (S ∪ T).card ≤ N := by simpa using Finset.card_le_univ (S ∪ T)
    omega
  · cases hk

/-! ## C161: several groups, panels -/

/-- **C161** MultiGroupDirectLiNGAM, `estimate_total_effect`: one effect for each group, in order, each of them estimated from that group's matrix and data alone. -/
theorem C161_effects (n : Nat) (order : List Nat) (groups : List ((Nat → Nat → K) × (List Nat → Nat → List K))) (f t : Nat) (hf : f ∈ order) (ht : t ∈ order)
    (hreg : ∀ g ∈ groups, ∀ ps, (g.2 ps t).length = ps.length) :
    ∃ L, groupEffects n order groups f t = some L ∧ L.length = groups.length ∧
      ∀ (d : Nat) (g : (Nat → Nat → K) × (List Nat → Nat → List K)), groups[d]? = some g → L[d]? = (g.2 (f :: (List.range n).filter fun p => decide (0 < |g.1 f p|)) t).head? := by
  unfold groupEffects
  induction groups with
  | nil => exact ⟨[], rfl, rfl, by simp⟩
  | cons g gs ih =>
    obtain ⟨L, h1, h2, h3⟩ := ih fun g hg => hreg g (by simp [hg])
    have hh : estimateTotalEffect n order g.1 g.2 f t = (g.2 (f :: (List.range n).filter fun p => decide (0 < |g.1 f p|)) t).head? := by
      unfold estimateTotalEffect; rw [if_pos ⟨hf, ht⟩]; rfl
    cases hc : g.2 (f :: (List.range n).filter fun p => decide (0 < |g.1 f p|)) t with
    | nil => have := hreg g (by simp) (f :: (List.range n).filter fun p => decide (0 < |g.1 f p|)); rw [hc] at this; simp at this
    | cons c cs =>
      refine ⟨c :: L, ?_, by simp [h2], ?_⟩
      · rw [List.mapM_cons, hh, hc, h1]; rfl
      · intro d g' hd
        cases d with
        | zero =>
          simp only [List.getElem?_cons_zero, Option.some.injEq] at hd
          subst hd
          rw [hc]; rfl
        | succ d => simpa using h3 d g' (by simpa using hd)

/-- **C161** the bootstrap of several groups: row `a`, column `b` of the effects of group `d` is that group's estimated effect of `b` on `a` if `b` precedes `a` in the common causal order, and 0 otherwise. -/
theorem C161_bootstrap [IsStrictOrderedRing K] (order : List Nat) (effects : Nat → Nat → List K) (d : Nat) (hd : ∀ s t, d < (effects s t).length) (a b : Nat) :
    ([b, a].Sublist order → some (groupBoot order effects d a b) = (effects b a)[d]?) ∧ (¬ [b, a].Sublist order → groupBoot order effects d a b = 0) := by
  unfold groupBoot
  rw [C139_bootstrap_matrix]
  refine ⟨fun h => ?_, fun h => if_neg h⟩
  rw [if_pos h, List.getElem?_eq_getElem (hd b a)]; rfl

omit [LinearOrder K] in
/-- **C161** the p-values of several groups: one matrix for each group, symmetric with zero diagonal, of that group's errors. -/
theorem C161_p_values {n : Nat} (groups : List (Σ N : Nat, ((Fin N → K) → (Fin N → K) → K) × (Fin n → Fin n → K) × (Fin N → Fin n → K))) :
    (groupPValues groups).length = groups.length ∧ ∀ (d : Nat) g m, groups[d]? = some g → (groupPValues groups)[d]? = some m →
      (∀ a b, m a b = m b a) ∧ (∀ a, m a a = 0) ∧
      ∀ a b, a < b → m a b = g.2.1 (fun k => g.2.2.2 k a - ∑ j, g.2.2.1 a j * g.2.2.2 k j) (fun k => g.2.2.2 k b - ∑ j, g.2.2.1 b j * g.2.2.2 k j) := by
  refine ⟨by simp [groupPValues], fun d g m hg hm => ?_⟩
  unfold groupPValues at hm
  rw [List.getElem?_map, hg, Option.map_some, Option.some.injEq] at hm
  subst hm
  obtain ⟨h1, h2, h3, -⟩ := C140_error_p_values g.2.1 g.2.2.1 g.2.2.2
  exact ⟨h1, h2, h3⟩

/-- **C161** the list of groups is accepted exactly if there are at least two groups, all with the same number of variables **and of samples**. -/
theorem C161_accepted (shapes : List (Nat × Nat)) (p : Nat) : checkXList shapes = some p ↔ 2 ≤ shapes.length ∧ ∃ N, ∀ s ∈ shapes, s = (N, p) := by
  unfold checkXList
  cases shapes with
  | nil => simp
  | cons s l =>
    rw [show (s :: l).headD (0, 0) = s from rfl]
    have e2 : ((s :: l).any fun x => decide (x.2 ≠ s.2)) = true ↔ ∃ x ∈ s :: l, x.2 ≠ s.2 := by simp only [List.any_eq_true, decide_eq_true_eq]
    have e3 : ((s :: l).any fun x => decide (x.1 ≠ s.1)) = true ↔ ∃ x ∈ s :: l, x.1 ≠ s.1 := by simp only [List.any_eq_true, decide_eq_true_eq]
    by_cases h1 : (s :: l).length < 2
    · rw [if_pos h1]; constructor
      · simp
      · rintro ⟨h, -⟩; omega
    rw [if_neg h1]
    by_cases h2 : ∃ x ∈ s :: l, x.2 ≠ s.2
    · rw [if_pos (e2.2 h2)]; constructor
      · simp
      · rintro ⟨-, N, h⟩
        obtain ⟨x, hx, hne⟩ := h2
        rw [h x hx, h s (by simp)] at hne
        exact absurd rfl hne
    rw [if_neg (fun hc => h2 (e2.1 hc))]
    by_cases h3 : ∃ x ∈ s :: l, x.1 ≠ s.1
    · rw [if_pos (e3.2 h3)]; constructor
      · simp
      · rintro ⟨-, N, h⟩
        obtain ⟨x, hx, hne⟩ := h3
        rw [h x hx, h s (by simp)] at hne
        exact absurd rfl hne
    rw [if_neg (fun hc => h3 (e3.1 hc))]
    push Not at h2 h3
    constructor
    · intro h
      simp only [Option.some.injEq] at h
      subst h
      exact ⟨by omega, s.1, fun x hx => Prod.ext (h3 x hx) (h2 x hx)⟩
    · rintro ⟨-, N, h⟩
      rw [h s (by simp)]

/-- **C161 is false for groups of different sizes**: any two groups with different numbers of samples are rejected (by `np.array` in the last line of the check). -/
theorem C161_sizes_violated (N M p : Nat) (h : N ≠ M) : checkXList [(N, p), (M, p)] = none := by
  cases hc : checkXList [(N, p), (M, p)] with
  | none => rfl
  | some q =>
    obtain ⟨-, K, hK⟩ := (C161_accepted _ q).1 hc
    have h1 := hK (N, p) (by simp)
    have h2 := hK (M, p) (by simp)
    simp only [Prod.mk.injEq] at h1 h2
    exact absurd (h1.1.trans h2.1.symm) h

omit [LinearOrder K] in
theorem longErrors_eq {N p : Nat} (B : Fin p → Fin p → K) (resid : Fin N → Fin p → K) (k : Fin N) (i : Fin p) :
    longErrors B resid k i = resid k i - ∑ j, B i j * resid k j := by
  unfold longErrors
  rw [← List.ofFn_eq_map, List.sum_ofFn]
  simp only [sub_mul, Finset.sum_sub_distrib, ite_mul, one_mul, zero_mul, Finset.sum_ite_eq, Finset.mem_univ, if_true]

omit [LinearOrder K] in
/-- **C161** LongitudinalLiNGAM, `get_error_independence_p_values`: a matrix for each time point; that of the first is NaN everywhere; each later one is symmetric with zero diagonal, and its
entries are the p-values of the tests of the residuals of the autoregression minus their prediction from the instantaneous effects. -/
theorem C161_panel {N p : Nat} (hsic : (Fin N → K) → (Fin N → K) → K) (T : Nat) (B : Nat → Fin p → Fin p → K) (resid : Nat → Fin N → Fin p → K) :
    (longPValues hsic T B resid).length = T ∧ ∀ t m, (longPValues hsic T B resid)[t]? = some m →
      (t = 0 → ∀ a b, m a b = none) ∧
      (t ≠ 0 → (∀ a b, m a b = m b a) ∧ (∀ a, m a a = some 0) ∧
        ∀ a b, a < b → m a b = some (hsic (fun k => resid t k a - ∑ j, B t a j * resid t k j) (fun k => resid t k b - ∑ j, B t b j * resid t k j))) := by
  refine ⟨by simp [longPValues], fun t m hm => ?_⟩
  unfold longPValues at hm
  rw [List.getElem?_map, Option.map_eq_some_iff] at hm
  obtain ⟨t', ht', hm⟩ := hm
  have : t' = t := by
    rw [List.getElem?_eq_some_iff] at ht'
    obtain ⟨h, e⟩ := ht'
    rw [List.getElem_range] at e
    exact e.symm
  subst this
  by_cases h0 : t' = 0
  · rw [if_pos h0] at hm
    subst hm
    exact ⟨fun _ _ _ => rfl, fun h => absurd h0 h⟩
  · rw [if_neg h0] at hm
    subst hm
    refine ⟨fun h => absurd h h0, fun _ => ?_⟩
    have hval := pairs_fold (fun i j => some (hsic (fun k => longErrors (B t') (resid t') k i) (fun k => longErrors (B t') (resid t') k j))) _
      (fun q hq => (pairs_mem (n := p) q.1 q.2).1 hq) (fun _ _ => some (0 : K))
    simp only [pairs_mem, longErrors_eq] at hval
    simp only [longErrors_eq]
    refine ⟨fun a b => ?_, fun a => ?_, fun a b h => ?_⟩
    · rw [hval, hval]
      rcases lt_trichotomy a b with h | rfl | h
      · rw [if_pos h, if_neg (not_lt_of_gt h), if_pos h]
      · rfl
      · rw [if_neg (not_lt_of_gt h), if_pos h, if_pos h]
    · rw [hval]; simp
    · rw [hval, if_pos h]

/-! ## Concrete cases -/

/-- Variables 0 and 1 are confounded, 2 → 3 with coefficient 2: C158 applies with both kinds of entries. -/
example : (let B : Fin 4 → Fin 4 → Option ℚ := fun i j => if (i, j) = (0, 1) ∨ (i, j) = (1, 0) then none else if (i, j) = (3, 2) then some 2 else some 0
    let X : Fin 2 → Fin 4 → ℚ := fun k i => 3 * k + i
    let h : (Fin 2 → Option ℚ) → (Fin 2 → Option ℚ) → Option ℚ := fun x y => addN (x 0) (mulN (y 1) 10)
    (errorPValuesNan h B X 0 2, errorPValuesNan h B X 2 1, errorPValuesNan h B X 3 2, errorPValuesNan h B X 2 2)) =
    (none, none, some (2 + 10 * (6 - 2 * 5)), some 0) := by decide +kernel

/-- C159, C160: a fit that leaves 0 and 1 in unknown order (`Parce.hardData` rejects everything). -/
example : ∃ r : Parce.Fitted Nat ℚ, Parce.fit Parce.hardData (fun _ _ _ => (1 : ℚ)) 3 ⟨none, []⟩ = some r ∧ r.order = [.unknown [0, 1, 2]] :=
  ⟨_, rfl, by decide⟩

example : (parceBoot (V := Nat) 0 (fun s t => 10 * s + t) [.unknown [4, 2], .var 1, .var 3] (fun _ _ => 0) 3 2,
    parceBoot (V := Nat) 0 (fun s t => 10 * s + t) [.unknown [4, 2], .var 1, .var 3] (fun _ _ => 0) 3 1,
    parceBoot (V := Nat) 0 (fun s t => 10 * s + t) [.unknown [4, 2], .var 1, .var 3] (fun _ _ => 0) 4 2) = (23, 13, 0) := by decide

/-- C160: 1000 observations and 100 samples of RCD: any two samples share 800 of their 900 observations. -/
example : rcdSampleSize 1000 100 = some 900 := by decide

/-- C161: two groups. -/
example : groupEffects (K := ℚ) 2 [0, 1] [(fun _ _ => 0, fun ps _ => ps.map fun _ => 5), (fun _ _ => 1, fun ps _ => ps.map fun _ => 7)] 0 1 = some [5, 7] ∧
    checkXList [(10, 2), (10, 2)] = some 2 := by decide +kernel

end CL.Conf
