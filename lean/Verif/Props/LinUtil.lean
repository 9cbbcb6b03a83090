import Verif.Model.Drawing
import Verif.Props.Parce
import Verif.Props.Rcd
import Verif.Props.ConfounderQueries
import Verif.Model.Lingam
import Verif.Proofs.PartialCorr
import Verif.Proofs.VermaPearl
import Verif.Proofs.IMap
import Mathlib.Tactic.Linarith
import Mathlib.Tactic.Ring
import Mathlib.Tactic.FinCases

/-!
# C185-C188: the utilities of the LiNGAM package
-/
namespace CL
open Spec
namespace LinUtil
variable {n N m : Nat}

/-! ## C185: `make_dot` -/
section dot
variable {K : Type} [AddCommGroup K] [LinearOrder K] [IsOrderedAddMonoid K]

theorem mem_cells (p : Fin n × Fin n) : p ∈ cells n := by
  simp [cells]

theorem nodup_cells : (cells n).Nodup := by
  unfold cells
  rw [List.nodup_flatMap]
  refine ⟨fun i _ => List.Nodup.map (fun a b h => (Prod.ext_iff.1 h).2) (List.nodup_finRange n), ?_⟩
  refine (List.nodup_finRange n).imp fun {i j} hij => ?_
  intro p h1 h2
  obtain ⟨a, -, rfl⟩ := List.mem_map.1 h1
  obtain ⟨b, -, h⟩ := List.mem_map.1 h2
  exact hij (Prod.ext_iff.1 h).1.symm

/-- Specification: the names of the prediction's target. -/
def Pred.target : Pred n K → Option String
  | .absent => none
  | .coefs t _ => some t
  | .imps t _ => some t
  | .plain t _ => some t

theorem predArrows_dst {limit : K} {name : Fin n → String} {p : Pred n K} {a : Arrow K} (h : a ∈ predArrows limit name p) : p.target = some a.dst := by
  cases p with
  | absent => simp [predArrows] at h
  | coefs t l => simp only [predArrows, List.mem_map] at h; obtain ⟨q, -, rfl⟩ := h; rfl
  | imps t l => simp only [predArrows, List.mem_map] at h; obtain ⟨q, -, rfl⟩ := h; rfl
  | plain t l => simp only [predArrows, List.mem_map] at h; obtain ⟨q, -, rfl⟩ := h; rfl

/-- **C185** `make_dot` with distinct labels, none of them the label of the prediction's target, and a limit that is not negative: an arrow with a coefficient is drawn from `j` to
`i` exactly if the entry of row `i` and column `j` is a number of absolute value above the limit, and the coefficient is that number. No cell is drawn twice. -/
theorem C185_arrows (B : Fin n → Fin n → Option K) {limit : K} (hlim : 0 ≤ limit) {name : Fin n → String} (hname : Function.Injective name) (p : Pred n K)
    (ht : ∀ t, p.target = some t → ∀ i, name i ≠ t) :
    (∀ i j c, (⟨name j, name i, .coef c⟩ : Arrow K) ∈ makeDot B limit name p ↔ B i j = some c ∧ limit < |c|) ∧
    (coefArrows B limit name ++ nanArrows B name).Nodup := by
  constructor
  · intro i j c
    unfold makeDot
    simp only [List.mem_append]
    constructor
    · rintro ((h | h) | h)
      · unfold coefArrows at h
        simp only [List.mem_map, List.mem_filter, decide_eq_true_eq, Arrow.mk.injEq, Ink.coef.injEq] at h
        obtain ⟨⟨a, b⟩, ⟨-, h1⟩, h2, h3, h4⟩ := h
        obtain rfl := hname h2
        obtain rfl := hname h3
        cases hB : B a b with
        | none => simp only [hB, Option.getD_none] at h1; exact absurd h1 (not_lt.2 (by simpa using hlim))
        | some x => simp only [hB, Option.getD_some] at h1 h4; subst h4; exact ⟨rfl, h1⟩
      · exact absurd rfl (ht _ (predArrows_dst h) i)
      · unfold nanArrows at h
        simp only [List.mem_map, Arrow.mk.injEq, reduceCtorEq, and_false, exists_false] at h
    · rintro ⟨h1, h2⟩
      refine Or.inl (Or.inl ?_)
      unfold coefArrows
      simp only [List.mem_map, List.mem_filter, decide_eq_true_eq]
      exact ⟨(i, j), ⟨mem_cells _, by simpa [h1] using h2⟩, by simp [h1]⟩
  · rw [List.nodup_append]
    refine ⟨?_, ?_, ?_⟩
    · refine List.Nodup.map ?_ (nodup_cells.filter _)
      rintro ⟨a, b⟩ ⟨a', b'⟩ h
      simp only [Arrow.mk.injEq] at h
      exact Prod.ext (hname h.2.1) (hname h.1)
    · refine List.Nodup.map ?_ (nodup_cells.filter _)
      rintro ⟨a, b⟩ ⟨a', b'⟩ h
      simp only [Arrow.mk.injEq, and_true] at h
      exact Prod.ext (hname h.2) (hname h.1)
    · intro a ha b hb h
      subst h
      unfold coefArrows at ha
      unfold nanArrows at hb
      obtain ⟨q, -, rfl⟩ := List.mem_map.1 ha
      obtain ⟨q', -, h⟩ := List.mem_map.1 hb
      simp only [Arrow.mk.injEq, reduceCtorEq, and_false] at h

/-- **C185** (prediction arrows): the dashed arrows into the prediction target are exactly the requested ones. -/
theorem C185_prediction (B : Fin n → Fin n → Option K) (limit : K) {name : Fin n → String} (hname : Function.Injective name) (t : String) :
    (∀ (l : List (Fin n × K)) j c, (⟨name j, t, .predCoef c⟩ : Arrow K) ∈ makeDot B limit name (.coefs t l) ↔ (j, c) ∈ l ∧ limit < |c|) ∧
    (∀ (l : List (Fin n × K)) j c, (⟨name j, t, .predImp c⟩ : Arrow K) ∈ makeDot B limit name (.imps t l) ↔ (j, c) ∈ l) ∧
    ∀ (l : List (Fin n)) j, (⟨name j, t, .pred⟩ : Arrow K) ∈ makeDot B limit name (.plain t l) ↔ j ∈ l := by
  refine ⟨fun l j c => ?_, fun l j c => ?_, fun l j => ?_⟩
  · simp only [makeDot, coefArrows, predArrows, nanArrows, List.mem_append, List.mem_map, List.mem_filter, Arrow.mk.injEq, reduceCtorEq, and_false,
      exists_false, false_or, or_false, Ink.predCoef.injEq, decide_eq_true_eq, true_and]
    constructor
    · rintro ⟨⟨a, b⟩, ⟨h1, h2⟩, h3, h4⟩
      obtain rfl := hname h3
      obtain rfl : b = c := h4
      exact ⟨h1, h2⟩
    · rintro ⟨h1, h2⟩
      exact ⟨(j, c), ⟨h1, h2⟩, rfl, rfl⟩
  · simp only [makeDot, coefArrows, predArrows, nanArrows, List.mem_append, List.mem_map, Arrow.mk.injEq, reduceCtorEq, and_false,
      exists_false, false_or, or_false, Ink.predImp.injEq, true_and]
    constructor
    · rintro ⟨⟨a, b⟩, h1, h3, h4⟩
      obtain rfl := hname h3
      obtain rfl : b = c := h4
      exact h1
    · exact fun h1 => ⟨(j, c), h1, rfl, rfl⟩
  · simp only [makeDot, coefArrows, predArrows, nanArrows, List.mem_append, List.mem_map, Arrow.mk.injEq, reduceCtorEq, and_false,
      exists_false, false_or, or_false, and_true]
    constructor
    · rintro ⟨a, h1, h3⟩
      obtain rfl := hname h3
      exact h1
    · exact fun h1 => ⟨j, h1, rfl⟩

theorem mem_both (B : Fin n → Fin n → Option K) (limit : K) {name : Fin n → String} (hname : Function.Injective name) (p : Pred n K) (i j : Fin n) :
    (⟨name j, name i, .both⟩ : Arrow K) ∈ makeDot B limit name p ↔ j ≤ i ∧ B i j = none := by
  unfold makeDot
  simp only [List.mem_append]
  constructor
  · rintro ((h | h) | h)
    · unfold coefArrows at h
      simp only [List.mem_map, Arrow.mk.injEq, reduceCtorEq, and_false, exists_false] at h
    · cases p with
      | absent => simp [predArrows] at h
      | coefs t l => simp only [predArrows, List.mem_map, Arrow.mk.injEq, reduceCtorEq, and_false, exists_false] at h
      | imps t l => simp only [predArrows, List.mem_map, Arrow.mk.injEq, reduceCtorEq, and_false, exists_false] at h
      | plain t l => simp only [predArrows, List.mem_map, Arrow.mk.injEq, reduceCtorEq, and_false, exists_false] at h
    · unfold nanArrows at h
      simp only [List.mem_map, List.mem_filter, Bool.and_eq_true, decide_eq_true_eq, Option.isNone_iff_eq_none, Arrow.mk.injEq, and_true] at h
      obtain ⟨⟨a, b⟩, ⟨-, h1⟩, h2, h3⟩ := h
      obtain rfl := hname h2
      obtain rfl := hname h3
      exact h1
  · intro h
    refine Or.inr ?_
    unfold nanArrows
    simp only [List.mem_map, List.mem_filter, Bool.and_eq_true, decide_eq_true_eq, Option.isNone_iff_eq_none]
    exact ⟨(i, j), ⟨mem_cells _, h⟩, rfl⟩

/-- Specification: a double-headed arrow joins `a` and `b`. -/
def DoubleHeaded (L : List (Arrow K)) (a b : String) : Prop := ⟨a, b, .both⟩ ∈ L ∨ ⟨b, a, .both⟩ ∈ L

/-- **C185** If the NaNs of the matrix are symmetric, a double-headed arrow joins two variables exactly if their entries are NaN. -/
theorem C185_unknown_partial (B : Fin n → Fin n → Option K) (limit : K) {name : Fin n → String} (hname : Function.Injective name) (p : Pred n K)
    (hsym : ∀ i j, B i j = none ↔ B j i = none) (i j : Fin n) : DoubleHeaded (makeDot B limit name p) (name i) (name j) ↔ B i j = none := by
  unfold DoubleHeaded
  rw [mem_both B limit hname, mem_both B limit hname, hsym j i, ← or_and_right]
  exact and_iff_right (le_total i j)

/-- **C185** A NaN above the diagonal whose mirror entry is zero is not drawn at all: no arrow of any kind joins the two variables. -/
theorem C185_unknown_violated (B : Fin n → Fin n → Option K) {limit : K} (hlim : 0 ≤ limit) {name : Fin n → String} (hname : Function.Injective name) {i j : Fin n} (hij : i < j)
    (h1 : B i j = none) (h2 : B j i = some 0) : ∀ x ∈ makeDot B limit name .absent, ¬ (x.src = name i ∧ x.dst = name j) ∧ ¬ (x.src = name j ∧ x.dst = name i) := by
  have key : ∀ x ∈ makeDot B limit name .absent, ∃ a b, x.src = name b ∧ x.dst = name a ∧ (limit < |(B a b).getD 0| ∨ b ≤ a ∧ B a b = none) := by
    intro x hx
    unfold makeDot at hx
    simp only [List.mem_append, predArrows, List.not_mem_nil, or_false] at hx
    rcases hx with hx | hx
    · unfold coefArrows at hx
      simp only [List.mem_map, List.mem_filter, decide_eq_true_eq] at hx
      obtain ⟨⟨a, b⟩, ⟨-, h⟩, rfl⟩ := hx
      exact ⟨a, b, rfl, rfl, Or.inl h⟩
    · unfold nanArrows at hx
      simp only [List.mem_map, List.mem_filter, Bool.and_eq_true, decide_eq_true_eq, Option.isNone_iff_eq_none] at hx
      obtain ⟨⟨a, b⟩, ⟨-, h⟩, rfl⟩ := hx
      exact ⟨a, b, rfl, rfl, Or.inr h⟩
  intro x hx
  obtain ⟨a, b, e1, e2, h⟩ := key x hx
  rw [e1, e2]
  constructor
  · rintro ⟨q1, q2⟩
    obtain rfl := hname q1
    obtain rfl := hname q2
    rw [h2] at h
    rcases h with h | h
    · exact absurd h (not_lt.2 (by simpa using hlim))
    · cases h.2
  · rintro ⟨q1, q2⟩
    obtain rfl := hname q1
    obtain rfl := hname q2
    rw [h1] at h
    rcases h with h | h
    · exact absurd h (not_lt.2 (by simpa using hlim))
    · exact absurd h.1 (not_le.2 hij)

/-- Such a matrix exists. -/
example : ∃ B : Fin 2 → Fin 2 → Option ℚ, B 0 1 = none ∧ B 1 0 = some 0 := ⟨fun i j => if i = 0 ∧ j = 1 then none else some 0, rfl, rfl⟩

/-- **C185** The matrices fitted by BottomUpParceLiNGAM: double-headed arrows join exactly the variables of unknown order. -/
theorem C185_parce {K' Q : Type} [LinearOrder K'] [Add K'] [LinearOrder Q] (D : Parce.Data K' Q) (coef : Nat → List Nat → Nat → K) (hn : 2 ≤ n) (o : Parce.Obj)
    (limit : K) {name : Fin n → String} (hname : Function.Injective name) (p : Pred n K) :
    ∃ r unk, Parce.fit D coef n o = some r ∧ (unk = [] ∨ Parce.Item.unknown unk ∈ r.order) ∧
      ∀ a b : Fin n, DoubleHeaded (makeDot (fun i j => r.B i j) limit name p) (name a) (name b) ↔ a ≠ b ∧ (a : Nat) ∈ unk ∧ (b : Nat) ∈ unk := by
  obtain ⟨r, unk, bot, hr, hord, -, -, hnan, -⟩ := Parce.C89_fit D coef hn o
  refine ⟨r, unk, hr, ?_, fun a b => ?_⟩
  · by_cases h : unk = []
    · exact Or.inl h
    · exact Or.inr (by rw [hord, if_neg h]; simp)
  · rw [C185_unknown_partial _ limit hname p (fun i j => by
      rw [hnan, hnan]
      constructor
      · rintro ⟨h1, h2, h3⟩; exact ⟨fun h => h1 h.symm, h3, h2⟩
      · rintro ⟨h1, h2, h3⟩; exact ⟨fun h => h1 h.symm, h3, h2⟩), hnan, ne_eq, ne_eq, Fin.val_inj]

/-- **C185** The matrices fitted by RCD: double-headed arrows join exactly the pairs of variables found to share a hidden confounder. -/
theorem C185_rcd (t : Rcd.Tests n) (maxN : Nat) : ∃ M B, (∀ fuel, n * n * (maxN + 1) + maxN < fuel → Rcd.fit t maxN fuel = some (M, B)) ∧
    ∀ (limit : ℚ) (coef : Nat → Nat → ℚ) (name : Fin n → String) (_ : Function.Injective name) (p : Pred n ℚ) (a b : Fin n),
      DoubleHeaded (makeDot (fun i j => Conf.rcdMatrix B coef i j) limit name p) (name a) (name b) ↔ B a b = .nan := by
  obtain ⟨M, B, hf, -, -, -, -, -, hsym, -⟩ := Rcd.C83_fit t maxN
  refine ⟨M, B, hf, fun limit coef name hname p a b => ?_⟩
  have hm : ∀ i j : Fin n, Conf.rcdMatrix B coef i j = none ↔ B i j = .nan := by
    intro i j
    unfold Conf.rcdMatrix
    rw [dif_pos ⟨i.2, j.2⟩]
    show (match B i j with | .zero => some 0 | .coef => some (coef i j) | .nan => none) = none ↔ _
    cases B i j <;> simp
  rw [C185_unknown_partial _ limit hname p (fun i j => by rw [hm, hm]; exact hsym i j), hm]

/-! ## C186: `get_exo_variables`, `get_sink_variables` -/

theorem nanSum_zero {K : Type} [AddCommGroup K] [LinearOrder K] [IsOrderedAddMonoid K] (l : List (Option K)) : nanSum l = some 0 ↔ ∀ x ∈ l, x = some 0 := by
  have hn : ∀ (l : List (Option K)), l.foldl (fun s x => s.bind fun a => x.map fun b => a + |b|) (none : Option K) = none := by
    intro l; induction l with
    | nil => rfl
    | cons x l ih => simpa using ih
  have : ∀ (l : List (Option K)) (a : K), 0 ≤ a → (l.foldl (fun s x => s.bind fun a => x.map fun b => a + |b|) (some a) = some 0 ↔ a = 0 ∧ ∀ x ∈ l, x = some 0) := by
    intro l
    induction l with
    | nil => intro a _; simp
    | cons x l ih =>
      intro a ha
      rw [List.foldl_cons]
      cases x with
      | none => simp only [Option.bind_some, Option.map_none]; rw [hn]; simp
      | some b =>
        simp only [Option.bind_some, Option.map_some]
        rw [ih _ (add_nonneg ha (abs_nonneg b)), add_eq_zero_iff_of_nonneg ha (abs_nonneg b), abs_eq_zero, and_assoc]
        simp
  unfold nanSum
  rw [this l 0 le_rfl]
  simp
end dot

section exo
variable {K : Type} [AddCommGroup K] [LinearOrder K] [IsOrderedAddMonoid K]

/-- **C186** `get_exo_variables` lists, in order, exactly the variables whose row is zero off the diagonal, `get_sink_variables` those whose column is (NaN counts as non-zero). -/
theorem C186_exact (B : Fin n → Fin n → Option K) :
    (∀ i, i ∈ exoVars B ↔ ∀ j, j ≠ i → B i j = some 0) ∧ (∀ i, i ∈ sinkVars B ↔ ∀ j, j ≠ i → B j i = some 0) ∧
    (exoVars B).Pairwise (· < ·) ∧ (sinkVars B).Pairwise (· < ·) := by
  refine ⟨fun i => ?_, fun i => ?_, (List.pairwise_lt_finRange n).filter _, (List.pairwise_lt_finRange n).filter _⟩
  · unfold exoVars
    simp only [List.mem_filter, List.mem_finRange, true_and, decide_eq_true_eq, nanSum_zero, List.mem_map, forall_exists_index, forall_apply_eq_imp_iff]
    exact forall_congr' fun j => by by_cases h : j = i <;> simp [h]
  · unfold sinkVars
    simp only [List.mem_filter, List.mem_finRange, true_and, decide_eq_true_eq, nanSum_zero, List.mem_map, forall_exists_index, forall_apply_eq_imp_iff]
    exact forall_congr' fun j => by by_cases h : j = i <;> simp [h]

/-- **C186** A matrix without directed cycles has an exogenous variable and a sink variable. -/
theorem C186_exists (hn : 0 < n) (B : Fin n → Fin n → Option K) (hac : Acyclic fun j i => B i j ≠ some 0) : exoVars B ≠ [] ∧ sinkVars B ≠ [] := by
  obtain ⟨r, hr⟩ := Acyclic.exists_rank hac
  have : Nonempty (Fin n) := ⟨⟨0, hn⟩⟩
  constructor
  · obtain ⟨i, hi⟩ := Finite.exists_min r
    refine List.ne_nil_of_mem (((C186_exact B).1 i).2 fun j _ => ?_)
    by_contra h
    exact absurd (hr j i h) (not_lt.2 (hi j))
  · obtain ⟨i, hi⟩ := Finite.exists_max r
    refine List.ne_nil_of_mem (((C186_exact B).2.1 i).2 fun j _ => ?_)
    by_contra h
    exact absurd (hr i j h) (not_lt.2 (hi j))

theorem makePrior_zero (exo sink : List Nat) (a b : Nat) : Lingam.makePriorKnowledge exo sink [] [] a b = 0 ↔ a ≠ b ∧ (a ∈ exo ∨ b ∈ sink) := by
  have h1 : ∀ (l : List Nat) (m : Nat → Nat → Int), (l.foldl (fun (m : Nat → Nat → Int) v => fun a b => if b = v then 0 else m a b) m) a b = 0 ↔ b ∈ l ∨ m a b = 0 := by
    intro l
    induction l with
    | nil => simp
    | cons v l ih => intro m; rw [List.foldl_cons, ih]; by_cases h : b = v <;> simp [h]
  have h2 : ∀ (l : List Nat) (m : Nat → Nat → Int), (l.foldl (fun (m : Nat → Nat → Int) v => fun a b => if a = v then 0 else m a b) m) a b = 0 ↔ a ∈ l ∨ m a b = 0 := by
    intro l
    induction l with
    | nil => simp
    | cons v l ih => intro m; rw [List.foldl_cons, ih]; by_cases h : a = v <;> simp [h]
  unfold Lingam.makePriorKnowledge
  by_cases h : a = b
  · simp [h]
  · simp only [h, if_false, ne_eq, not_false_eq_true, true_and, List.foldl_nil]
    rw [h2, h1]
    simp

/-- **C186** The prior knowledge that `make_prior_knowledge` makes of the exogenous and sink variables of a matrix forbids no effect of that matrix, and forbids every effect into an
exogenous and out of a sink variable. -/
theorem C186_prior (B : Fin n → Fin n → Option K) (i j : Fin n) (hij : i ≠ j) :
    let pk := Lingam.makePriorKnowledge ((exoVars B).map fun v => v.val) ((sinkVars B).map fun v => v.val) [] []
    (pk i j = 0 → B i j = some 0) ∧ (i ∈ exoVars B ∨ j ∈ sinkVars B → pk i j = 0) := by
  have hm : ∀ (l : List (Fin n)) (v : Fin n), (v : Nat) ∈ l.map (fun v => v.val) ↔ v ∈ l := by
    intro l v
    simp only [List.mem_map]
    constructor
    · rintro ⟨w, hw, h⟩; rwa [Fin.val_inj.1 h] at hw
    · intro h; exact ⟨v, h, rfl⟩
  intro pk
  have hne : (i : Nat) ≠ j := fun h => hij (Fin.val_inj.1 h)
  constructor
  · intro h
    have := ((makePrior_zero _ _ _ _).1 h).2
    rw [hm, hm] at this
    rcases this with h | h
    · exact ((C186_exact B).1 i).1 h j (Ne.symm hij)
    · exact ((C186_exact B).2.1 j).1 h i hij
  · intro h
    refine (makePrior_zero _ _ _ _).2 ⟨hne, ?_⟩
    rw [hm, hm]; exact h
end exo

/-- A chain `0 → 1 → 2`. -/
example : exoVars (n := 3) (fun i j => if (i : Nat) = j + 1 then some (1 : ℚ) else some 0) = [0] ∧ sinkVars (n := 3) (fun i j => if (i : Nat) = j + 1 then some (1 : ℚ) else some 0) = [2] := by
  decide +kernel

/-! ## C187: `remove_effect` -/

/-- Specification: `LinearRegression` finds an intercept and coefficients with the least sum of squares. -/
def LeastSquares (ols : Ols N n) : Prop :=
  ∀ X S f, Residual X f S fun k => X k f - ((ols X S f).1 + ∑ s ∈ S, (ols X S f).2 s * X k s)

/-- Such a regression exists. -/
theorem exists_leastSquares : ∃ ols : Ols N n, LeastSquares ols := by
  have : ∀ (X : Fin N → Fin n → ℝ) (S : Finset (Fin n)) (f : Fin n), ∃ c : ℝ × (Fin n → ℝ), Residual X f S fun k => X k f - (c.1 + ∑ s ∈ S, c.2 s * X k s) := by
    intro X S f
    obtain ⟨u, hu⟩ := exists_residual X f S
    obtain ⟨b0, b, hb⟩ := hu.1
    refine ⟨(b0, b), ?_⟩
    have : u = fun k => X k f - (b0 + ∑ s ∈ S, b s * X k s) := funext hb
    exact this ▸ hu
  choose c hc using this
  exact ⟨c, hc⟩

theorem fit_congr {X Y : Fin N → Fin n → ℝ} {f : Fin n} {S : Finset (Fin n)} (h1 : ∀ k, X k f = Y k f) (h2 : ∀ s ∈ S, ∀ k, X k s = Y k s) (u : Fin N → ℝ) : Fit X f S u ↔ Fit Y f S u := by
  have : ∀ (b : Fin n → ℝ) (k : Fin N), ∑ s ∈ S, b s * X k s = ∑ s ∈ S, b s * Y k s := fun b k => Finset.sum_congr rfl fun s hs => by rw [h2 s hs k]
  unfold Fit
  simp only [this, h1]

theorem residual_congr {X Y : Fin N → Fin n → ℝ} {f : Fin n} {S : Finset (Fin n)} (h1 : ∀ k, X k f = Y k f) (h2 : ∀ s ∈ S, ∀ k, X k s = Y k s) {u : Fin N → ℝ} (h : Residual X f S u) :
    Residual Y f S u := ⟨(fit_congr h1 h2 u).1 h.1, fun u' h' => h.2 u' ((fit_congr h1 h2 u').2 h')⟩

theorem removeFold (ols : Ols N n) (h : LeastSquares ols) (R : Finset (Fin n)) (X : Fin N → Fin n → ℝ) : ∀ (l : List (Fin n)) (Y : Fin N → Fin n → ℝ), l.Nodup → (∀ f ∈ l, f ∉ R) →
    (∀ f, f ∈ l ∨ f ∈ R → ∀ k, Y k f = X k f) →
    let Z := l.foldl (removeStep ols R) Y
    (∀ f ∉ l, ∀ k, Z k f = Y k f) ∧ ∀ f ∈ l, Residual X f R fun k => Z k f := by
  intro l
  induction l with
  | nil => intro Y _ _ _; exact ⟨fun _ _ _ => rfl, fun f hf => by simp at hf⟩
  | cons a l ih =>
    intro Y hnd hR hY
    rw [List.nodup_cons] at hnd
    have haR := hR a List.mem_cons_self
    have hstep : ∀ f, f ≠ a → ∀ k, removeStep ols R Y a k f = Y k f := fun f hf k => by unfold removeStep; rw [if_neg hf]
    obtain ⟨i1, i2⟩ := ih (removeStep ols R Y a) hnd.2 (fun f hf => hR f (List.mem_cons_of_mem _ hf)) (fun f hf k => by
      have hfa : f ≠ a := by
        rintro rfl
        rcases hf with hf | hf
        · exact hnd.1 hf
        · exact haR hf
      rw [hstep f hfa]
      exact hY f (hf.imp (List.mem_cons_of_mem _) id) k)
    rw [List.foldl_cons]
    refine ⟨fun f hf k => ?_, fun f hf => ?_⟩
    · rw [i1 f (fun h => hf (List.mem_cons_of_mem _ h)) k, hstep f (fun h => hf (h ▸ List.mem_cons_self))]
    · rcases List.mem_cons.1 hf with rfl | hf
      · have e : (fun k => l.foldl (removeStep ols R) (removeStep ols R Y f) k f) = fun k => Y k f - ((ols Y R f).1 + ∑ s ∈ R, (ols Y R f).2 s * Y k s) := by
          funext k; rw [i1 f hnd.1 k]; unfold removeStep; rw [if_pos rfl]
        show Residual X f R fun k => l.foldl (removeStep ols R) (removeStep ols R Y f) k f
        rw [e]
        exact residual_congr (fun k => hY f (Or.inl List.mem_cons_self) k) (fun s hs k => hY s (Or.inr hs) k) (h Y R f)
      · exact i2 f hf

theorem remove_some (ols : Ols N n) {R : Finset (Fin n)} (hR : R.Nonempty) (X : Fin N → Fin n → ℝ) :
    removeEffect ols R X = some (((List.finRange n).filter (· ∉ R)).foldl (removeStep ols R) X) := by
  unfold removeEffect
  rw [if_neg (fun h => hR.ne_empty h.1)]

/-- **C187** `remove_effect` keeps the columns of the removed features and replaces every other column by its least-squares residual, with intercept, on them: it differs from the column
by an affine combination of the removed features, has mean zero and is orthogonal to each of them; the residuals refer to the data as given, although the matrix is changed in place. -/
theorem C187_residuals (ols : Ols N n) (h : LeastSquares ols) {R : Finset (Fin n)} (hR : R.Nonempty) (X : Fin N → Fin n → ℝ) :
    ∃ Z, removeEffect ols R X = some Z ∧ (∀ f ∈ R, ∀ k, Z k f = X k f) ∧
      ∀ f ∉ R, Residual X f R (fun k => Z k f) ∧ ∑ k, Z k f = 0 ∧ ∀ s ∈ R, ∑ k, Z k f * X k s = 0 := by
  obtain ⟨h1, h2⟩ := removeFold ols h R X ((List.finRange n).filter (· ∉ R)) X ((List.nodup_finRange n).filter _) (fun f hf => by simpa using hf) (fun _ _ _ => rfl)
  refine ⟨_, remove_some ols hR X, fun f hf k => h1 f (by simpa using hf) k, fun f hf => ?_⟩
  have := h2 f (by simpa using hf)
  exact ⟨this, this.sum_zero, fun s hs => this.orth hs⟩

/-- **C187** The result does not depend on which least-squares solution is found, and a second call changes nothing. -/
theorem C187_unique (ols ols' : Ols N n) (h : LeastSquares ols) (h' : LeastSquares ols') {R : Finset (Fin n)} (hR : R.Nonempty) (X : Fin N → Fin n → ℝ) :
    removeEffect ols R X = removeEffect ols' R X ∧ (removeEffect ols R X).bind (removeEffect ols R) = removeEffect ols R X := by
  obtain ⟨Z, hZ, k1, r1⟩ := C187_residuals ols h hR X
  obtain ⟨Z', hZ', k2, r2⟩ := C187_residuals ols' h' hR X
  obtain ⟨W, hW, k3, r3⟩ := C187_residuals ols h hR Z
  constructor
  · rw [hZ, hZ']
    congr 1
    funext k f
    by_cases hf : f ∈ R
    · rw [k1 f hf, k2 f hf]
    · exact congrFun ((r1 f hf).1.unique (r2 f hf).1) k
  · rw [hZ, Option.bind_some, hW]
    congr 1
    funext k f
    by_cases hf : f ∈ R
    · rw [k3 f hf]
    · refine congrFun ((r3 f hf).1.unique (residual_of_orth ⟨0, fun _ => 0, fun k => by simp⟩ (r1 f hf).2.1 fun s hs => ?_)) k
      have := (r1 f hf).2.2 s hs
      rw [← this]
      exact Finset.sum_congr rfl fun k _ => by rw [k1 s hs k]

/-- **C187** Removing the effects of `A` and then those of `B` is, for every other feature, the same as removing the effects of both at once. -/
theorem C187_sequential (ols : Ols N n) (h : LeastSquares ols) {A B : Finset (Fin n)} (hA : A.Nonempty) (hB : B.Nonempty) (hd : Disjoint A B) (X : Fin N → Fin n → ℝ) :
    ∃ Y Z W, removeEffect ols A X = some Y ∧ removeEffect ols B Y = some Z ∧ removeEffect ols (A ∪ B) X = some W ∧ ∀ f ∉ A ∪ B, ∀ k, Z k f = W k f := by
  obtain ⟨Y, hY, y1, y2⟩ := C187_residuals ols h hA X
  obtain ⟨Z, hZ, z1, z2⟩ := C187_residuals ols h hB Y
  obtain ⟨W, hW, w1, w2⟩ := C187_residuals ols h (hA.mono Finset.subset_union_left : (A ∪ B).Nonempty) X
  refine ⟨Y, Z, W, hY, hZ, hW, fun f hf k => ?_⟩
  have hfA : f ∉ A := fun h => hf (Finset.mem_union_left _ h)
  have hfB : f ∉ B := fun h => hf (Finset.mem_union_right _ h)
  have hBA : ∀ b ∈ B, b ∉ A := fun b hb ha => Finset.disjoint_left.1 hd ha hb
  rcases Nat.eq_zero_or_pos N with rfl | hN
  · exact k.elim0
  have hN' : (N : ℝ) ≠ 0 := by exact_mod_cast hN.ne'
  obtain ⟨c0, c, hc⟩ := (z2 f hfB).1.1
  have hc0 : c0 = 0 := by
    have e1 := (z2 f hfB).2.1
    have e2 : ∑ k, Z k f = ∑ k, Y k f - (N * c0 + ∑ s ∈ B, c s * ∑ k, Y k s) := by
      rw [Finset.sum_congr rfl fun k _ => hc k, Finset.sum_sub_distrib, Finset.sum_add_distrib, Finset.sum_comm]
      simp [Finset.mul_sum]
    rw [e1, (y2 f hfA).2.1, Finset.sum_eq_zero (fun s hs => by rw [(y2 s (hBA s hs)).2.1, mul_zero])] at e2
    have : (N : ℝ) * c0 = 0 := by linarith
    exact (mul_eq_zero.1 this).resolve_left hN'
  have horthA : ∀ a ∈ A, ∑ k, Z k f * X k a = 0 := by
    intro a ha
    have e : ∀ k, Z k f * X k a = Y k f * X k a - ∑ s ∈ B, c s * (Y k s * X k a) := by
      intro k
      rw [show Z k f = _ from hc k, hc0, zero_add, sub_mul, Finset.sum_mul]
      congr 1
      exact Finset.sum_congr rfl fun s _ => by ring
    rw [Finset.sum_congr rfl fun k _ => e k, Finset.sum_sub_distrib, Finset.sum_comm, (y2 f hfA).2.2 a ha, Finset.sum_eq_zero, sub_zero]
    intro s hs
    rw [← Finset.mul_sum, (y2 s (hBA s hs)).2.2 a ha, mul_zero]
  have hsum := (z2 f hfB).2.1
  -- the columns of `B` before the first call
  have hYfit : ∀ b, b ∉ A → ∃ (d0 : ℝ) (d : Fin n → ℝ), ∀ k, Y k b = X k b - (d0 + ∑ s ∈ A, d s * X k s) := fun b hb => (y2 b hb).1.1
  choose! d0 d hdk using hYfit
  have horthB : ∀ b ∈ B, ∑ k, Z k f * X k b = 0 := by
    intro b hb
    have e : ∀ k, Z k f * X k b = Z k f * Y k b + (d0 b * Z k f + ∑ s ∈ A, d b s * (Z k f * X k s)) := by
      intro k
      rw [show X k b = Y k b + (d0 b + ∑ s ∈ A, d b s * X k s) by rw [hdk b (hBA b hb) k]; ring, mul_add, mul_add, Finset.mul_sum]
      congr 2
      · ring
      · exact Finset.sum_congr rfl fun s _ => by ring
    rw [Finset.sum_congr rfl fun k _ => e k, Finset.sum_add_distrib, Finset.sum_add_distrib, Finset.sum_comm, ← Finset.mul_sum, (z2 f hfB).2.2 b hb, hsum,
      Finset.sum_eq_zero]
    · ring
    · intro s hs
      rw [← Finset.mul_sum, horthA s hs, mul_zero]
  refine congrFun (Residual.unique (data := X) (x := f) (S := A ∪ B) (residual_of_orth ?_ hsum fun s hs => ?_) (w2 f hf).1) k
  · refine ⟨d0 f - ∑ s ∈ B, c s * d0 s, fun s => if s ∈ B then c s else d f s - ∑ b ∈ B, c b * d b s, fun k => ?_⟩
    show Z k f = X k f - (d0 f - ∑ s ∈ B, c s * d0 s + ∑ s ∈ A ∪ B, (if s ∈ B then c s else d f s - ∑ b ∈ B, c b * d b s) * X k s)
    have u1 : ∑ s ∈ B, c s * Y k s = ∑ s ∈ B, c s * (X k s - (d0 s + ∑ a ∈ A, d s a * X k a)) := Finset.sum_congr rfl fun s hs => by rw [hdk s (hBA s hs) k]
    have u2 : ∑ s ∈ A, (if s ∈ B then c s else d f s - ∑ b ∈ B, c b * d b s) * X k s = ∑ s ∈ A, (d f s - ∑ b ∈ B, c b * d b s) * X k s :=
      Finset.sum_congr rfl fun s hs => by rw [if_neg fun hb => hBA s hb hs]
    have u3 : ∑ s ∈ B, (if s ∈ B then c s else d f s - ∑ b ∈ B, c b * d b s) * X k s = ∑ s ∈ B, c s * X k s := Finset.sum_congr rfl fun s hs => by rw [if_pos hs]
    rw [show Z k f = _ from hc k, hc0, zero_add, hdk f hfA k, u1, Finset.sum_union hd, u2, u3]
    have e1 : ∑ s ∈ B, c s * (X k s - (d0 s + ∑ a ∈ A, d s a * X k a)) = ∑ s ∈ B, c s * X k s - ∑ s ∈ B, c s * d0 s - ∑ a ∈ A, (∑ b ∈ B, c b * d b a) * X k a := by
      rw [← Finset.sum_sub_distrib]
      simp only [Finset.sum_mul]
      rw [Finset.sum_comm (s := A), ← Finset.sum_sub_distrib]
      refine Finset.sum_congr rfl fun s _ => ?_
      rw [mul_sub, mul_add, Finset.mul_sum, Finset.sum_congr rfl fun a _ => (mul_assoc (c s) (d s a) (X k a)).symm]
      ring
    rw [e1]
    simp only [sub_mul, Finset.sum_sub_distrib]
    ring
  · rcases Finset.mem_union.1 hs with hs | hs
    · exact horthA s hs
    · exact horthB s hs

/-- **C187** Without features to remove the call raises. -/
theorem C187_empty_violated (ols : Ols N n) (hn : 0 < n) (X : Fin N → Fin n → ℝ) : removeEffect ols ∅ X = none := by
  unfold removeEffect; rw [if_pos ⟨rfl, hn⟩]

/-! ## C188: `predict_adaptive_lasso` -/

/-- Specification: the lasso objective with intercept. -/
noncomputable def lassoLoss (lam : ℝ) (X : Fin N → Fin m → ℝ) (y : Fin N → ℝ) (c0 : ℝ) (c : Fin m → ℝ) : ℝ :=
  1 / (2 * N) * ∑ k, (y k - (c0 + ∑ j, X k j * c j)) ^ 2 + lam * ∑ j, |c j|

/-- Specification: the adaptive lasso objective: predictor `j` is penalised in inverse proportion to the weight `w j`. -/
noncomputable def adaptiveLoss (lam : ℝ) (w : Fin m → ℝ) (X : Fin N → Fin m → ℝ) (y : Fin N → ℝ) (c0 : ℝ) (c : Fin m → ℝ) : ℝ :=
  1 / (2 * N) * ∑ k, (y k - (c0 + ∑ j, X k j * c j)) ^ 2 + lam * ∑ j, |c j| / w j

/-- **C188** If the lasso solver returns a minimiser for the penalty `lam` it selects, `predict_adaptive_lasso` returns a minimiser of the adaptive lasso for that penalty and the
weights `|OLS coefficient| ^ gamma`, among the coefficients that vanish where the ordinary coefficient vanishes; and it vanishes there itself. -/
theorem C188_adaptive (lr lasso : (Fin N → Fin m → ℝ) → (Fin N → ℝ) → Fin m → ℝ) {γ : ℝ} (hγ : 0 < γ) (X : Fin N → Fin m → ℝ) (y : Fin N → ℝ) (lam c0 : ℝ) (hlam : 0 ≤ lam)
    (hmin : ∀ b0 b, lassoLoss lam (fun k i => X k i * |lr X y i| ^ γ) y c0 (lasso (fun k i => X k i * |lr X y i| ^ γ) y) ≤ lassoLoss lam (fun k i => X k i * |lr X y i| ^ γ) y b0 b) :
    (∀ j, lr X y j = 0 → adaptiveLasso lr lasso γ X y j = 0) ∧
    ∀ b0 b, (∀ j, lr X y j = 0 → b j = 0) →
      adaptiveLoss lam (fun j => |lr X y j| ^ γ) X y c0 (adaptiveLasso lr lasso γ X y) ≤ adaptiveLoss lam (fun j => |lr X y j| ^ γ) X y b0 b := by
  have hw0 : ∀ j, lr X y j = 0 ↔ |lr X y j| ^ γ = 0 := fun j => by
    rw [Real.rpow_eq_zero (abs_nonneg _) hγ.ne', abs_eq_zero]
  have hwp : ∀ j, 0 ≤ |lr X y j| ^ γ := fun j => Real.rpow_nonneg (abs_nonneg _) _
  have hz : ∀ j, lr X y j = 0 → adaptiveLasso lr lasso γ X y j = 0 := fun j h => by
    unfold adaptiveLasso; rw [(hw0 j).1 h, mul_zero]
  refine ⟨hz, fun b0 b hb => ?_⟩
  set w : Fin m → ℝ := fun j => |lr X y j| ^ γ with hw
  set c := lasso (fun k i => X k i * |lr X y i| ^ γ) y with hc
  have hle : adaptiveLoss lam w X y c0 (adaptiveLasso lr lasso γ X y) ≤ lassoLoss lam (fun k i => X k i * w i) y c0 c := by
    unfold adaptiveLoss lassoLoss
    refine add_le_add (le_of_eq ?_) (mul_le_mul_of_nonneg_left (Finset.sum_le_sum fun j _ => ?_) hlam)
    · congr 1
      refine Finset.sum_congr rfl fun k _ => ?_
      congr 3
      refine Finset.sum_congr rfl fun j _ => ?_
      show X k j * (c j * w j) = X k j * w j * c j
      ring
    · show |c j * w j| / w j ≤ |c j|
      rw [abs_mul, abs_of_nonneg (hwp j)]
      by_cases h : w j = 0
      · rw [h]; simp
      · rw [mul_div_assoc, div_self h, mul_one]
  have hge : lassoLoss lam (fun k i => X k i * w i) y b0 (fun j => b j / w j) = adaptiveLoss lam w X y b0 b := by
    unfold adaptiveLoss lassoLoss
    congr 1
    · congr 1
      refine Finset.sum_congr rfl fun k _ => ?_
      congr 3
      refine Finset.sum_congr rfl fun j _ => ?_
      by_cases h : w j = 0
      · rw [hb j ((hw0 j).2 h)]; simp [h]
      · rw [mul_assoc, mul_div_cancel₀ _ h]
    · congr 1
      exact Finset.sum_congr rfl fun j _ => by rw [abs_div, abs_of_nonneg (hwp j)]
  exact hle.trans ((hmin b0 _).trans hge.le)

/-- The hypothesis is met: one sample `(1, 1)`, ordinary coefficient 1, penalty 0: the coefficient 1 has loss 0. -/
example : let X : Fin 1 → Fin 1 → ℝ := fun _ _ => 1
    let lr : (Fin 1 → Fin 1 → ℝ) → (Fin 1 → ℝ) → Fin 1 → ℝ := fun _ _ _ => 1
    ∀ b0 b, lassoLoss 0 (fun k i => X k i * |lr X (fun _ => 1) i| ^ (1 : ℝ)) (fun _ => 1) 0 (lr X (fun _ => 1)) ≤
      lassoLoss 0 (fun k i => X k i * |lr X (fun _ => 1) i| ^ (1 : ℝ)) (fun _ => 1) b0 b := by
  intro X lr b0 b
  have : lassoLoss 0 (fun k i => X k i * |lr X (fun _ => 1) i| ^ (1 : ℝ)) (fun _ => 1) 0 (lr X (fun _ => 1)) = 0 := by simp [lassoLoss, X, lr]
  rw [this]
  unfold lassoLoss
  have : 0 ≤ ∑ k : Fin 1, ((1 : ℝ) - (b0 + ∑ j, X k j * |lr X (fun _ => 1) j| ^ (1 : ℝ) * b j)) ^ 2 := Finset.sum_nonneg fun _ _ => sq_nonneg _
  rw [zero_mul, add_zero]
  exact mul_nonneg (by norm_num) this

end LinUtil
end CL
