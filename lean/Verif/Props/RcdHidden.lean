import Verif.Props.RcdRecovery
import Verif.Proofs.IMap
import Mathlib.Tactic.FinCases

/-!
# C196 (cases), C197: RCD on concrete models and with hidden variables
-/
namespace CL
namespace Rcd
open Spec Relation Finset
variable {N n m : Nat}

/-! ### concrete models -/

section
variable {e : Fin m → Fin N → ℝ} {B T : Fin m → Fin m → ℝ}

/-- every acyclic matrix and every family of errors have data -/
theorem generated_of (he : Errors e) (hac : Acyclic fun p i => B p i ≠ 0) (hT : TotalEffects B T) :
    Generated (fun k i => ∑ l, T l i * e l k) (fun _ => 0) B e := by
  refine ⟨he, hac, fun k i => ?_⟩
  have h1 : ∀ l, T l i * e l k = (if l = i then e l k else 0) + ∑ p, B p i * T l p * e l k := by
    intro l
    rw [hT l i, add_mul, ite_mul, one_mul, zero_mul, sum_mul]
  rw [sum_congr rfl fun l _ => h1 l, sum_add_distrib, sum_ite_eq' univ i, if_pos (mem_univ _), sum_comm]
  simp only [mul_sum, zero_add, mul_assoc]
  ring

theorem errors_of_int {z : Fin m → Fin N → ℤ} (h1 : ∀ i, ∑ k, z i k = 0) (h2 : ∀ i, 0 < ∑ k, z i k ^ 2) (h3 : ∀ i j, i ≠ j → ∑ k, z i k * z j k = 0) :
    Errors fun i k => (z i k : ℝ) :=
  ⟨fun i => by exact_mod_cast h1 i, fun i => by exact_mod_cast h2 i, fun i j hij => by exact_mod_cast h3 i j hij⟩

theorem totals_of_int {b t : Fin m → Fin m → ℤ} (h : ∀ j i, t j i = (if j = i then 1 else 0) + ∑ p, b p i * t j p) :
    TotalEffects (fun p i => (b p i : ℝ)) fun p i => (t p i : ℝ) := by
  intro j i
  have := h j i
  dsimp only
  exact_mod_cast this

theorem acyclic_of_int {b : Fin m → Fin m → ℤ} (ρ : Fin m → Nat) (h : ∀ p i, b p i ≠ 0 → ρ p < ρ i) : Acyclic fun p i => (b p i : ℝ) ≠ 0 :=
  Spec.acyclic_of_rank (ρ := ρ) fun p i hp => h p i (by exact_mod_cast hp)

theorem anc_of_int {b : Fin m → Fin m → ℤ} {R : Fin m → Fin m → Prop} (h1 : ∀ p i, b p i ≠ 0 → R p i) (h2 : ∀ a p i, R a p → b p i ≠ 0 → R a i) {a i : Fin m}
    (h : Anc (fun p i => (b p i : ℝ)) a i) : R a i := by
  induction h with
  | single h => exact h1 _ _ (Int.cast_ne_zero.1 h)
  | tail _ h ih => exact h2 _ _ _ ih (Int.cast_ne_zero.1 h)

/-- errors: `e_l` is `1` in row `2 l`, `-1` in row `2 l + 1` and `0` elsewhere -/
def exErr (m : Nat) (l : Fin m) (k : Fin (2 * m)) : ℤ := if k.val = 2 * l.val then 1 else if k.val = 2 * l.val + 1 then -1 else 0

theorem exErr_three : Errors fun l k => ((exErr 3 l k : ℤ) : ℝ) := errors_of_int (by decide) (by decide) (by decide)
theorem exErr_four : Errors fun l k => ((exErr 4 l k : ℤ) : ℝ) := errors_of_int (by decide) (by decide) (by decide)
theorem exErr_five : Errors fun l k => ((exErr 5 l k : ℤ) : ℝ) := errors_of_int (by decide) (by decide) (by decide)

/-- `x1 = 2 x0 + e1`, `x2 = x0 - 3 x1 + e2` -/
def triB : Fin 3 → Fin 3 → ℤ := ![![0, 2, 1], ![0, 0, -3], ![0, 0, 0]]
def triT : Fin 3 → Fin 3 → ℤ := ![![1, 2, -5], ![0, 1, -3], ![0, 0, 1]]

/-- A model to which C196 applies: RCD with the default number of explanatory variables returns its matrix. -/
theorem C196_example : ∃ (ct : ColTests 6) (data : Fin 6 → Fin 3 → ℝ) (e : Fin 3 → Fin 6 → ℝ),
    Generated data (fun _ => 0) (fun p i => (triB p i : ℝ)) e ∧ TotalEffects (fun p i => (triB p i : ℝ)) (fun p i => (triT p i : ℝ)) ∧
    (∀ j i, Anc (fun p i => (triB p i : ℝ)) j i → (triT j i : ℝ) ≠ 0) ∧ IdealTests e ct.nonGauss ct.corr ct.indep ∧
    ∃ M, fitData ct false (fun _ _ _ _ => 0) data 2 30 = some (M, fun i j => some (triB j i : ℝ)) := by
  obtain ⟨ng, corr, ind, hI⟩ := exists_ideal exErr_three
  have hT : TotalEffects (fun p i => (triB p i : ℝ)) (fun p i => (triT p i : ℝ)) := totals_of_int (by decide)
  have hg := generated_of exErr_three (acyclic_of_int (b := triB) Fin.val (by decide)) hT
  have hf : ∀ j i, Anc (fun p i => (triB p i : ℝ)) j i → (triT j i : ℝ) ≠ 0 := by
    intro j i h
    have := anc_of_int (b := triB) (R := fun j i => triT j i ≠ 0) (by decide) (by decide) h
    exact_mod_cast this
  obtain ⟨M, h1, -⟩ := C196_recovers (ct := ⟨ng, corr, ind⟩) hg hT hf hI false (fun _ _ _ _ => 0) (maxN := 2) le_rfl (fuel := 30) (by norm_num)
  exact ⟨⟨ng, corr, ind⟩, _, _, hg, hT, hf, hI, M, h1⟩

end

/-! ### reaching the larger sets -/

section
variable {t : Tests n}

theorem step_unique {s : St n} {U : List (Fin n)} {x : Fin n} (hh : s.hist U = none) (he : eligible t (common s.M U) U = true)
    (hs : sinks t s.M (common s.M U) U = [x]) : (step t s U).M x = s.M x ∪ U.toFinset.erase x := by
  rw [show step t s U = if s.hist U = some (common s.M U) then s else if eligible t (common s.M U) U then
    { addSink s U (sinks t s.M (common s.M U) U) with hist := fun V => if V = U then some (common s.M U) else (addSink s U (sinks t s.M (common s.M U) U)).hist V } else s from rfl,
    if_neg (by rw [hh]; simp), if_pos he, hs]
  exact addSink_single s U x

theorem pass_hist {l : Nat} {U : List (Fin n)} (hU : U.length ≠ l + 1) (s : St n) : (pass t l s).hist U = s.hist U := by
  refine foldl_mem_inv (Q := fun r => r.hist U = s.hist U) _ (fun V hV r hr => ?_) _ rfl
  rcases step_cases (t := t) r V with h | ⟨-, -, -, h⟩
  · rw [h]; exact hr
  · rw [h]
    dsimp only
    rw [if_neg fun e => hU (by rw [e]; exact (combos_facts hV).2)]
    exact hr

theorem loop_mono {maxN f l : Nat} {s r : St n} (h : loop t maxN f l s = some r) (v : Fin n) : (pass t l s).M v ⊆ r.M v := by
  match f, h with
  | f + 1, h =>
    rw [loop] at h
    have inv : ∀ {l'}, loop t maxN f l' (pass t l s) = some r → (pass t l s).M v ⊆ r.M v := fun h' =>
      loop_inv (Q := fun r => (pass t l s).M v ⊆ r.M v) (fun s U hs => hs.trans (step_mono s U v)) (fun s hs => hs) (Subset.refl _) h'
    split at h
    · exact inv h
    · split at h
      · exact inv h
      · rw [Option.some_inj] at h
        rw [h]

/-- the first time that the sets of size three are looked at -/
theorem first_triples {Q : St n → Prop} (hQ : ∀ s, Q s → Q (pass t 1 s)) {maxN : Nat} (hm : 2 ≤ maxN) {r : St n} :
    ∀ (f : Nat) (s : St n), Q s → loop t maxN f 1 s = some r → ∃ s0 f', Q s0 ∧ (pass t 1 s0).changed = false ∧ loop t maxN f' 2 (pass t 1 s0) = some r := by
  intro f
  induction f with
  | zero => intro s _ h; simp [loop] at h
  | succ f ih =>
    intro s hs h
    rw [loop] at h
    by_cases hc : (pass t 1 s).changed = true
    · rw [if_pos hc] at h
      exact ih _ (hQ s hs) h
    · rw [if_neg hc, if_pos (by omega)] at h
      exact ⟨s, f, hs, by simpa using hc, h⟩

end

/-! ### hidden variables -/

section
variable {e : Fin m → Fin N → ℝ} {ct : ColTests N} {useMl : Bool} {ml : (Fin N → Fin n → ℝ) → Fin n → Finset (Fin n) → Fin n → ℝ}
  {full : Fin N → Fin m → ℝ} {b0 : Fin m → ℝ} {B T : Fin m → Fin m → ℝ} {o : Fin n → Fin m}

/-- what is recorded holds in the full model -/
def SoundIn (B : Fin m → Fin m → ℝ) (o : Fin n → Fin m) (M : Fin n → Finset (Fin n)) : Prop := ∀ i, ∀ j ∈ M i, Anc B (o j) (o i)

theorem rep_observed (hg : Generated full b0 B e) (hT : TotalEffects B T) (o : Fin n → Fin m) : Rep (fun k v => full k (o v)) e (fun v l => T l (o v)) :=
  fun v => rep_of_generated hg hT (o v)

theorem pair_sinks_hidden (hg : Generated full b0 B e) (hT : TotalEffects B T) (ho : Function.Injective o) (hi : IdealTests e ct.nonGauss ct.corr ct.indep)
    {M : Fin n → Finset (Fin n)} (hM : SoundIn B o M) {U : List (Fin n)} (hU : U.Nodup) (hl : U.length = 2)
    (hel : eligible (testsOf ct useMl ml fun k v => full k (o v)) (common M U) U = true) {v w : Fin n}
    (hs : v ∈ sinks (testsOf ct useMl ml fun k v => full k (o v)) M (common M U) U) (hw : w ∈ U) (hwv : w ≠ v) : Anc B (o w) (o v) := by
  have hr := rep_observed hg hT o
  obtain ⟨hv, -, hind⟩ := mem_sinks.1 hs
  have hcw : ∀ h ∈ common M U, Anc B (o h) (o w) := fun h hh => hM w h ((mem_filter.1 hh).2 w hw)
  obtain ⟨x, y, rfl⟩ := List.length_eq_two.1 hl
  have hxy : x ≠ y := by simpa using hU
  have hother : ([x, y] : List (Fin n)).toFinset.erase v = {w} := by
    simp only [List.mem_cons, List.not_mem_nil, or_false] at hv hw
    ext z
    simp only [mem_erase, List.mem_toFinset, List.mem_cons, List.not_mem_nil, or_false, mem_singleton]
    rcases hv with rfl | rfl <;> rcases hw with rfl | rfl <;> grind
  rw [hother] at hind
  have hc := eligible_pair hel (List.Sublist.refl _)
  obtain ⟨A, hA⟩ := exists_vec (ct := ct) (useMl := useMl) (ml := ml) hg.errors hi hr (common M [x, y])
  have hc' : (testsOf ct useMl ml fun k v => full k (o v)).correlated (v, common M [x, y]) (w, common M [x, y]) = true := by
    rw [corr_vec hg.errors hi hA hA] at hc ⊢
    simp only [List.mem_cons, List.not_mem_nil, or_false] at hv hw
    rcases hv with rfl | rfl <;> rcases hw with rfl | rfl
    · exact absurd rfl hwv
    · exact hc
    · rwa [ip_comm]
    · exact absurd rfl hwv
  refine anc_of_total hg.acyclic hT (fun h => hwv (ho h)) ?_
  exact pair_sound (t := fun v l => T l (o v)) hg.errors hi hr (oy := o w) ((total_zero hg.acyclic hT).1 (o w))
    (fun h hh => total_below hg.acyclic hT (hcw h hh)) hc' hind

theorem pass_one_hidden (hg : Generated full b0 B e) (hT : TotalEffects B T) (ho : Function.Injective o) (hi : IdealTests e ct.nonGauss ct.corr ct.indep)
    {s : St n} (hS : SoundIn B o s.M) : SoundIn B o (pass (testsOf ct useMl ml fun k v => full k (o v)) 1 s).M := by
  refine foldl_mem_inv (Q := fun s => SoundIn B o s.M) _ (fun U hU s hs => ?_) _ hS
  obtain ⟨hnd, hlen⟩ := combos_facts hU
  intro i j hj
  rcases step_M (t := testsOf ct useMl ml fun k v => full k (o v)) s U i with h | ⟨he, hsk, h⟩
  · rw [h] at hj; exact hs i j hj
  · rw [h] at hj
    dsimp only at hj
    rw [if_pos rfl, mem_union] at hj
    rcases hj with hj | hj
    · exact hs i j hj
    · obtain ⟨g1, g2⟩ := mem_erase.1 hj
      exact pair_sinks_hidden hg hT ho hi hs hnd hlen he (by rw [hsk]; simp) (List.mem_toFinset.1 g2) g1

/-- **C197.** An acyclic linear model of which only some variables are observed, ideal tests: with `max_explanatory_num = 1` every ancestor that RCD reports is
an ancestor in the full model, with any hidden variables and whether or not effects cancel. -/
theorem C197_pairs_sound (hg : Generated full b0 B e) (ho : Function.Injective o) (hi : IdealTests e ct.nonGauss ct.corr ct.indep)
    (useMl : Bool) (ml : (Fin N → Fin n → ℝ) → Fin n → Finset (Fin n) → Fin n → ℝ) {fuel : Nat} {M : Fin n → Finset (Fin n)} {E : Fin n → Fin n → Option ℝ}
    (h : fitData ct useMl ml (fun k v => full k (o v)) 1 fuel = some (M, E)) : ∀ i, ∀ j ∈ M i, Anc B (o j) (o i) := by
  obtain ⟨T, hT⟩ := exists_total hg.acyclic
  unfold fitData fit ancestors at h
  rw [Option.map_map, Option.map_map, Option.map_eq_some_iff] at h
  obtain ⟨r, h1, h2⟩ := h
  simp only [Function.comp, Prod.mk.injEq] at h2
  rw [← h2.1]
  have key : ∀ (f : Nat) (s : St n), SoundIn B o s.M → loop (testsOf ct useMl ml fun k v => full k (o v)) 1 f 1 s = some r → SoundIn B o r.M := by
    intro f
    induction f with
    | zero => intro s _ h; simp [loop] at h
    | succ f ih =>
      intro s hs h
      rw [loop] at h
      have hp := pass_one_hidden (useMl := useMl) (ml := ml) hg hT ho hi hs
      split at h
      · exact ih _ hp h
      · rw [if_neg (by omega), Option.some_inj] at h
        rw [← h]; exact hp
  exact key _ _ (fun i j hj => by simp [init] at hj) h1

end

/-! ### false ancestors -/

section
variable {ι : Type} [Fintype ι] {e : ι → Fin N → ℝ} {ct : ColTests N} {useMl : Bool} {ml : (Fin N → Fin n → ℝ) → Fin n → Finset (Fin n) → Fin n → ℝ}
  {data : Fin N → Fin n → ℝ} {t : Fin n → ι → ℝ}

theorem vec_empty (he : Errors e) (hi : IdealTests e ct.nonGauss ct.corr ct.indep) (hr : Rep data e t) : Vec e ct useMl ml data t ∅ t := by
  obtain ⟨A, hA⟩ := exists_vec (ct := ct) (useMl := useMl) (ml := ml) he hi hr ∅
  have : A = t := by
    funext v j
    obtain ⟨β, hβ⟩ := hA.form v
    rw [hβ, sum_empty, sub_zero]
  rwa [this] at hA

theorem ip_pos (he : Errors e) {a b : ι → ℝ} (h0 : ∀ l, 0 ≤ a l * b l) {l : ι} (hl : 0 < a l * b l) : ip e a b ≠ 0 := by
  refine (sum_pos' (fun i _ => mul_nonneg (h0 i) (he.pos i).le) ⟨l, mem_univ _, mul_pos hl (he.pos l)⟩).ne'

theorem eligible_of {tt : Tests n} {H : Finset (Fin n)} {U : List (Fin n)} (h1 : ∀ x ∈ U, tt.nonGauss x H = true)
    (h3 : ∀ x ∈ U, ∀ y ∈ U, tt.correlated (x, H) (y, H) = true) : eligible tt H U = true := by
  unfold eligible
  rw [Bool.and_eq_true, List.all_eq_true, List.all_eq_true]
  refine ⟨h1, fun q hq => ?_⟩
  obtain ⟨hs, hl⟩ := (combos_mem _ _ _).1 hq
  obtain ⟨x, y, rfl⟩ := List.length_eq_two.1 hl
  exact h3 x (hs.subset (by simp)) y (hs.subset (by simp))

theorem exists_ct (he : Errors e) : ∃ ct : ColTests N, IdealTests e ct.nonGauss ct.corr ct.indep := by
  obtain ⟨ng, corr, ind, h⟩ := exists_ideal he
  exact ⟨⟨ng, corr, ind⟩, h⟩

theorem fitData_of_loop {maxN fuel : Nat} {r : St n} (h : loop (testsOf ct useMl ml data) maxN fuel 1 init = some r) :
    ∃ E, fitData ct useMl ml data maxN fuel = some (r.M, E) := by
  unfold fitData fit ancestors
  rw [h]
  exact ⟨_, rfl⟩

/-- non-negative integer effects: all pairs with a common error are correlated -/
theorem eligible_empty {z : Fin n → ι → ℤ} (he : Errors e) (hi : IdealTests e ct.nonGauss ct.corr ct.indep) (hr : Rep data e fun v l => (z v l : ℝ)) {U : List (Fin n)}
    (h0 : ∀ v l, 0 ≤ z v l) (h1 : ∀ x ∈ U, ∀ y ∈ U, ∃ l, 0 < z x l * z y l) : eligible (testsOf ct useMl ml data) ∅ U = true := by
  have hA := vec_empty (useMl := useMl) (ml := ml) he hi hr
  refine eligible_of (fun x hx => hA.gauss x ?_) fun x hx y hy => (corr_vec he hi hA hA x y).2 ?_
  · obtain ⟨l, hl⟩ := h1 x hx x hx
    exact ⟨l, by have := left_ne_zero_of_mul hl.ne'; exact_mod_cast this⟩
  · obtain ⟨l, hl⟩ := h1 x hx y hy
    exact ip_pos he (fun l => by have := mul_nonneg (h0 x l) (h0 y l); exact_mod_cast this) (l := l) (by exact_mod_cast hl)

end

/-- `x1 = h + e1`, `x2 = h + e2`, `x3 = x2 + e3` with `h` hidden -/
def hidB : Fin 4 → Fin 4 → ℤ := ![![0, 1, 1, 0], ![0, 0, 0, 0], ![0, 0, 0, 1], ![0, 0, 0, 0]]
def hidT : Fin 4 → Fin 4 → ℤ := ![![1, 1, 1, 1], ![0, 1, 0, 0], ![0, 0, 1, 1], ![0, 0, 0, 1]]

section
variable {ct : ColTests 8} {useMl : Bool} {ml : (Fin 8 → Fin 3 → ℝ) → Fin 3 → Finset (Fin 3) → Fin 3 → ℝ} {data : Fin 8 → Fin 3 → ℝ} {e : Fin 4 → Fin 8 → ℝ}

theorem hid_pair (he : Errors e) (hi : IdealTests e ct.nonGauss ct.corr ct.indep) (hr : Rep data e fun v l => (hidT l v.succ : ℝ)) {M : Fin 3 → Finset (Fin 3)}
    (h1 : 2 ∉ M 1) (h2 : 1 ∉ M 2) : sinks (testsOf ct useMl ml data) M ∅ [1, 2] = [2] := by
  have hA := vec_empty (useMl := useMl) (ml := ml) he hi hr
  refine eq_singleton_of (List.Nodup.filter _ (by decide)) ?_ ?_
  · refine mem_sinks.2 ⟨by decide, ⟨fun y hy hyi => ?_, ?_⟩, ?_⟩
    · have : y = 1 := by revert y; decide
      rw [this]; exact h1
    · rw [show ([1, 2] : List (Fin 3)).toFinset.erase 2 = {1} from by decide, singleton_subset_iff]; exact h2
    · rw [show ([1, 2] : List (Fin 3)).toFinset.erase 2 = {1} from by decide, hA.indep]
      refine ⟨fun _ => 1, fun j hj l => ?_⟩
      rw [mem_singleton] at hj
      subst hj
      fin_cases l <;> simp [hidT]
  · intro z hz
    obtain ⟨hzU, -, h3⟩ := mem_sinks.1 hz
    have : z = 1 ∨ z = 2 := by simpa using hzU
    rcases this with rfl | rfl
    · rw [show ([1, 2] : List (Fin 3)).toFinset.erase 1 = {2} from by decide, hA.indep] at h3
      obtain ⟨β, hβ⟩ := h3
      have a1 := hβ 2 (by simp) 3
      have a2 := hβ 2 (by simp) 0
      simp [hidT] at a1 a2
      rw [a1] at a2
      norm_num at a2
    · rfl

theorem hid_triple (he : Errors e) (hi : IdealTests e ct.nonGauss ct.corr ct.indep) (hr : Rep data e fun v l => (hidT l v.succ : ℝ)) {M : Fin 3 → Finset (Fin 3)}
    (h1 : ∀ i j, j ∈ M i ↔ i = 2 ∧ j = 1) : sinks (testsOf ct useMl ml data) M ∅ [0, 1, 2] = [2] := by
  have hA := vec_empty (useMl := useMl) (ml := ml) he hi hr
  refine eq_singleton_of (List.Nodup.filter _ (by decide)) ?_ ?_
  · refine mem_sinks.2 ⟨by decide, ⟨fun y hy hyi => ?_, ?_⟩, ?_⟩
    · rw [h1]; revert y; decide
    · intro h
      have := h (show (0 : Fin 3) ∈ _ from by decide)
      rw [h1] at this
      revert this; decide
    · rw [show ([0, 1, 2] : List (Fin 3)).toFinset.erase 2 = {0, 1} from by decide, hA.indep]
      refine ⟨![0, 1, 0], fun j hj l => ?_⟩
      rw [sum_pair (by decide)]
      fin_cases l <;> simp [hidT]
      rw [mem_insert, mem_singleton] at hj
      rcases hj with rfl | rfl <;> simp
  · intro z hz
    obtain ⟨hzU, ⟨h2, -⟩, h3⟩ := mem_sinks.1 hz
    have : z = 0 ∨ z = 1 ∨ z = 2 := by simpa using hzU
    rcases this with rfl | rfl | rfl
    · rw [show ([0, 1, 2] : List (Fin 3)).toFinset.erase 0 = {1, 2} from by decide, hA.indep] at h3
      obtain ⟨β, hβ⟩ := h3
      have a1 := hβ 1 (by simp) 0
      have a2 := hβ 1 (by simp) 2
      rw [sum_pair (by decide)] at a1 a2
      simp [hidT] at a1 a2
      linarith
    · exact absurd ((h1 2 1).2 ⟨rfl, rfl⟩) (h2 2 (by decide) (by decide))
    · rfl

end

/-- **C197**, fails for the default `max_explanatory_num = 2` (and larger): `x0 = h + e`, `x1 = h + e'`, `x2 = x1 + e''` with a hidden `h`. RCD reports `x0` as an
ancestor of `x2`, although nothing is caused by `x0`. -/
theorem C197_two_violated : ∃ (full : Fin 8 → Fin 4 → ℝ) (e : Fin 4 → Fin 8 → ℝ) (ct : ColTests 8), Generated full (fun _ => 0) (fun p i => (hidB p i : ℝ)) e ∧
    IdealTests e ct.nonGauss ct.corr ct.indep ∧ (∀ i, ¬ Anc (fun p i => (hidB p i : ℝ)) 1 i) ∧
    ∀ (useMl : Bool) (ml : (Fin 8 → Fin 3 → ℝ) → Fin 3 → Finset (Fin 3) → Fin 3 → ℝ) (maxN : Nat), 2 ≤ maxN → ∀ fuel, 9 * (maxN + 1) + maxN < fuel →
      ∃ M E, fitData ct useMl ml (fun k v => full k v.succ) maxN fuel = some (M, E) ∧ 0 ∈ M 2 := by
  obtain ⟨ct, hI⟩ := exists_ct exErr_four
  have hT : TotalEffects (fun p i => (hidB p i : ℝ)) (fun p i => (hidT p i : ℝ)) := totals_of_int (by decide)
  have hg := generated_of exErr_four (acyclic_of_int (b := hidB) Fin.val (by decide)) hT
  refine ⟨_, _, ct, hg, hI, fun i h => ?_, ?_⟩
  · exact anc_of_int (b := hidB) (R := fun j i => j ≠ 1) (by decide) (by decide) h rfl
  intro useMl ml maxN hm fuel hfuel
  have hr : Rep _ _ fun (v : Fin 3) l => (hidT l v.succ : ℝ) := rep_observed hg hT Fin.succ
  set tt := testsOf ct useMl ml fun k (v : Fin 3) => ∑ l, (hidT l v.succ : ℝ) * ((exErr 4 l k : ℤ) : ℝ) with htt
  obtain ⟨r, -, h2⟩ := loop_terminates (t := tt) maxN (3 * 3 * (maxN + 1) + maxN + 1) 1 init le_rfl (by simp [weight, init])
  have hlr := h2 fuel (by omega)
  obtain ⟨s0, f', ⟨hS, hR, hH⟩, hch, hl2⟩ := first_triples (Q := fun s => SoundIn (fun p i => (hidB p i : ℝ)) (Fin.succ : Fin 3 → Fin 4) s.M ∧ Recorded tt s ∧ s.hist [0, 1, 2] = none)
    (fun s hs => ⟨pass_one_hidden (useMl := useMl) (ml := ml) hg hT (Fin.succ_injective _) hI hs.1, foldl_inv (Q := Recorded _) (fun s U h => step_recorded h U) _ _ ⟨hs.2.1.seen⟩,
      by rw [pass_hist (by decide)]; exact hs.2.2⟩) hm fuel init ⟨fun i j h => by simp [init] at h, ⟨fun U H h => by simp [init] at h⟩, rfl⟩ hlr
  have hS1 := pass_one_hidden (useMl := useMl) (ml := ml) hg hT (Fin.succ_injective _) hI hS
  have hR1 : Recorded tt (pass tt 1 s0) := foldl_inv (Q := Recorded _) (fun s U h => step_recorded h U) _ _ ⟨hR.seen⟩
  have hH1 : (pass tt 1 s0).hist [0, 1, 2] = none := by rw [pass_hist (by decide)]; exact hH
  have hsub : ∀ i j : Fin 3, j ∈ (pass tt 1 s0).M i → i = 2 ∧ j = 1 := by
    intro i j hj
    have h1 := anc_of_int (b := hidB) (R := fun j i => hidT j i ≠ 0 ∧ j ≠ i) (by decide) (by decide) (hS1 i j hj)
    clear hj
    revert i j; decide
  have hcom : ∀ U : List (Fin 3), (∃ x ∈ U, x ≠ 2) → common (pass tt 1 s0).M U = ∅ := by
    rintro U ⟨x, hx, hx2⟩
    refine eq_empty_of_forall_notMem fun a ha => ?_
    exact hx2 (hsub x a ((mem_filter.1 ha).2 x hx)).1
  have hz : ∀ (v : Fin 3) (l : Fin 4), 0 ≤ hidT l v.succ := by decide
  have h12 : 1 ∈ (pass tt 1 s0).M 2 := by
    have hhist := foldl_hist (t := tt) (combos (List.finRange 3) 2) { s0 with changed := false } hch (fun _ => False) (fun U h => h.elim) [1, 2] (Or.inr (by decide))
    change eligible tt (common (pass tt 1 s0).M [1, 2]) [1, 2] = true → (pass tt 1 s0).hist [1, 2] = some (common (pass tt 1 s0).M [1, 2]) at hhist
    rw [hcom _ ⟨1, by decide, by decide⟩] at hhist
    obtain ⟨M', g1, g2, g3⟩ := hR1.seen _ _ (hhist (eligible_empty (z := fun v l => hidT l v.succ) exErr_four hI hr hz (by decide)))
    by_contra hn
    refine hn (g3 2 (hid_pair exErr_four hI hr (fun h => ?_) fun h => hn (g1 2 h)) 1 (by decide) (by decide))
    have := hsub 1 2 (g1 1 h)
    revert this; decide
  have hM : ∀ i j : Fin 3, j ∈ (pass tt 1 s0).M i ↔ i = 2 ∧ j = 1 := fun i j => ⟨hsub i j, by rintro ⟨rfl, rfl⟩; exact h12⟩
  have hp2 : 0 ∈ (pass tt 2 (pass tt 1 s0)).M 2 := by
    have hc : combos (List.finRange 3) (2 + 1) = [[0, 1, 2]] := by decide
    rw [pass, hc, List.foldl_cons, List.foldl_nil]
    have hc0 := hcom [0, 1, 2] ⟨0, by decide, by decide⟩
    rw [step_unique (s := { pass tt 1 s0 with changed := false }) (x := 2) hH1 (by
      show eligible tt (common (pass tt 1 s0).M [0, 1, 2]) [0, 1, 2] = true
      rw [hc0]
      exact eligible_empty (z := fun v l => hidT l v.succ) exErr_four hI hr hz (by decide)) (by
      show sinks tt (pass tt 1 s0).M (common (pass tt 1 s0).M [0, 1, 2]) [0, 1, 2] = [2]
      rw [hc0]
      exact hid_triple exErr_four hI hr hM)]
    exact mem_union_right _ (by decide)
  have hfin : 0 ∈ r.M 2 := loop_mono hl2 2 hp2
  obtain ⟨E, hE⟩ := fitData_of_loop hlr
  exact ⟨r.M, E, hE, hfin⟩

/-- A model with a hidden variable to which C197 applies: with `max_explanatory_num = 1` only the true ancestor can be reported. -/
theorem C197_example : ∃ (full : Fin 8 → Fin 4 → ℝ) (e : Fin 4 → Fin 8 → ℝ) (ct : ColTests 8), Generated full (fun _ => 0) (fun p i => (hidB p i : ℝ)) e ∧
    IdealTests e ct.nonGauss ct.corr ct.indep ∧ ∃ M E, fitData ct true (fun _ _ _ _ => 1) (fun k (v : Fin 3) => full k v.succ) 1 30 = some (M, E) ∧
      ∀ i j, j ∈ M i → i = 2 ∧ j = 1 := by
  obtain ⟨ct, hI⟩ := exists_ct exErr_four
  have hg := generated_of exErr_four (acyclic_of_int (b := hidB) Fin.val (by decide)) (totals_of_int (b := hidB) (t := hidT) (by decide))
  obtain ⟨r, hr, -⟩ := loop_terminates (t := testsOf ct true (fun _ _ _ _ => 1) fun k (v : Fin 3) => ∑ l, (hidT l v.succ : ℝ) * ((exErr 4 l k : ℤ) : ℝ)) 1 30 1 init le_rfl
    (by simp [weight, init])
  obtain ⟨E, hE⟩ := fitData_of_loop hr
  refine ⟨_, _, ct, hg, hI, r.M, E, hE, fun i j hj => ?_⟩
  have h1 := anc_of_int (b := hidB) (R := fun j i => hidT j i ≠ 0 ∧ j ≠ i) (by decide) (by decide) (C197_pairs_sound hg (Fin.succ_injective _) hI true _ hE i j hj)
  clear hj
  revert i j; decide

/-- `x1 = x0 + x4 + e1`, `x2 = x1 + e2`, `x3 = x0 + x4 + e3` -/
def fiveB : Fin 5 → Fin 5 → ℤ := ![![0, 1, 0, 1, 0], ![0, 0, 1, 0, 0], ![0, 0, 0, 0, 0], ![0, 0, 0, 0, 0], ![0, 1, 0, 1, 0]]
def fiveT : Fin 5 → Fin 5 → ℤ := ![![1, 1, 1, 1, 0], ![0, 1, 1, 0, 0], ![0, 0, 1, 0, 0], ![0, 0, 0, 1, 0], ![0, 1, 1, 1, 1]]

theorem five_sinks {ct : ColTests 10} {useMl : Bool} {ml : (Fin 10 → Fin 5 → ℝ) → Fin 5 → Finset (Fin 5) → Fin 5 → ℝ} {data : Fin 10 → Fin 5 → ℝ} {e : Fin 5 → Fin 10 → ℝ}
    (he : Errors e) (hi : IdealTests e ct.nonGauss ct.corr ct.indep) (hr : Rep data e fun v l => (fiveT l v : ℝ)) {M : Fin 5 → Finset (Fin 5)}
    (h1 : ∀ i j, j ∈ M i ↔ fiveT j i ≠ 0 ∧ j ≠ i) : sinks (testsOf ct useMl ml data) M ∅ [0, 1, 2, 3] = [2] := by
  have hA := vec_empty (useMl := useMl) (ml := ml) he hi hr
  refine eq_singleton_of (List.Nodup.filter _ (by decide)) ?_ ?_
  · refine mem_sinks.2 ⟨by decide, ⟨fun y hy hyi => ?_, ?_⟩, ?_⟩
    · rw [h1]; revert y; decide
    · intro h
      have := h (show (3 : Fin 5) ∈ _ from by decide)
      rw [h1] at this
      revert this; decide
    · rw [show ([0, 1, 2, 3] : List (Fin 5)).toFinset.erase 2 = {0, 1, 3} from by decide, hA.indep]
      refine ⟨![0, 1, 0, 0, 0], fun j hj l => ?_⟩
      rw [sum_insert (by decide), sum_pair (by decide)]
      fin_cases l <;> simp [fiveT]
      simp only [mem_insert, mem_singleton] at hj
      rcases hj with rfl | rfl | rfl <;> simp
  · intro z hz
    obtain ⟨hzU, ⟨h2, -⟩, h3⟩ := mem_sinks.1 hz
    have : z = 0 ∨ z = 1 ∨ z = 2 ∨ z = 3 := by simpa using hzU
    rcases this with rfl | rfl | rfl | rfl
    · exact absurd ((h1 1 0).2 (by decide)) (h2 1 (by decide) (by decide))
    · exact absurd ((h1 2 1).2 (by decide)) (h2 2 (by decide) (by decide))
    · rfl
    · rw [show ([0, 1, 2, 3] : List (Fin 5)).toFinset.erase 3 = {0, 1, 2} from by decide, hA.indep] at h3
      obtain ⟨β, hβ⟩ := h3
      have a1 := hβ 1 (by simp) 4
      have a2 := hβ 1 (by simp) 1
      rw [sum_insert (by decide), sum_pair (by decide)] at a1 a2
      simp [fiveT] at a1 a2
      linarith

/-- **C196**, fails for `max_explanatory_num ≥ 3`: in a model without hidden variables RCD reports `x3` as an ancestor of `x2`, although nothing is caused by
`x3`. -/
theorem C196_three_violated : ∃ (data : Fin 10 → Fin 5 → ℝ) (e : Fin 5 → Fin 10 → ℝ) (ct : ColTests 10), Generated data (fun _ => 0) (fun p i => (fiveB p i : ℝ)) e ∧
    IdealTests e ct.nonGauss ct.corr ct.indep ∧ (∀ i, ¬ Anc (fun p i => (fiveB p i : ℝ)) 3 i) ∧
    ∀ (useMl : Bool) (ml : (Fin 10 → Fin 5 → ℝ) → Fin 5 → Finset (Fin 5) → Fin 5 → ℝ) (maxN : Nat), 3 ≤ maxN → ∀ fuel, 25 * (maxN + 1) + maxN < fuel →
      ∃ M E, fitData ct useMl ml data maxN fuel = some (M, E) ∧ 3 ∈ M 2 := by
  obtain ⟨ct, hI⟩ := exists_ct exErr_five
  have hT : TotalEffects (fun p i => (fiveB p i : ℝ)) (fun p i => (fiveT p i : ℝ)) := totals_of_int (by decide)
  have hg := generated_of exErr_five (acyclic_of_int (b := fiveB) ![0, 1, 2, 1, 0] (by decide)) hT
  have hanc : ∀ {j i}, Anc (fun p i => (fiveB p i : ℝ)) j i → fiveT j i ≠ 0 ∧ j ≠ i := fun h =>
    anc_of_int (b := fiveB) (R := fun j i => fiveT j i ≠ 0 ∧ j ≠ i) (by decide) (by decide) h
  have hf : ∀ j i, Anc (fun p i => (fiveB p i : ℝ)) j i → (fiveT j i : ℝ) ≠ 0 := fun j i h => Int.cast_ne_zero.2 (hanc h).1
  refine ⟨_, _, ct, hg, hI, fun i h => ?_, ?_⟩
  · exact anc_of_int (b := fiveB) (R := fun j i => j ≠ 3) (by decide) (by decide) h rfl
  intro useMl ml maxN hm fuel hfuel
  have hr : Rep _ _ fun (v : Fin 5) l => (fiveT l v : ℝ) := rep_of_generated hg hT
  set tt := testsOf ct useMl ml fun k (v : Fin 5) => ∑ l, (fiveT l v : ℝ) * ((exErr 5 l k : ℤ) : ℝ) with htt
  obtain ⟨r, -, h2⟩ := loop_terminates (t := tt) maxN (5 * 5 * (maxN + 1) + maxN + 1) 1 init le_rfl (by simp [weight, init])
  have hlr := h2 fuel (by omega)
  obtain ⟨s0, f', ⟨hS, hR, hH⟩, hch, hl2⟩ := first_triples (Q := fun s => Sound (fun p i => (fiveB p i : ℝ)) s.M ∧ Recorded tt s ∧ s.hist [0, 1, 2, 3] = none)
    (fun s hs => by
      have h1 := pass_one (useMl := useMl) (ml := ml) hg hT hf hI hs.1 hs.2.1
      exact ⟨h1.1, h1.2.1, by rw [pass_hist (by decide)]; exact hs.2.2⟩) (by omega) fuel init ⟨fun i j h => by simp [init] at h, ⟨fun U H h => by simp [init] at h⟩, rfl⟩ hlr
  have hE := (pass_one (useMl := useMl) (ml := ml) hg hT hf hI hS hR).2.2 hch
  have hH1 : (pass tt 2 (pass tt 1 s0)).hist [0, 1, 2, 3] = none := by rw [pass_hist (by decide), pass_hist (by decide)]; exact hH
  obtain ⟨hE2, hch2⟩ := pass_two (useMl := useMl) (ml := ml) hg hT hI hE
  obtain ⟨f3, hl3⟩ : ∃ f3, loop tt maxN f3 3 (pass tt 2 (pass tt 1 s0)) = some r := by
    match f', hl2 with
    | f' + 1, hl2 =>
      rw [loop, if_neg (by rw [hch2]; simp), if_pos (by omega)] at hl2
      exact ⟨f', hl2⟩
  generalize pass tt 2 (pass tt 1 s0) = s2 at *
  have hM : ∀ i j : Fin 5, j ∈ s2.M i ↔ fiveT j i ≠ 0 ∧ j ≠ i := fun i j => (hE2 i j).trans
    ⟨hanc, fun h => anc_of_total hg.acyclic hT h.2 (Int.cast_ne_zero.2 h.1)⟩
  have hcom : common s2.M [0, 1, 2, 3] = ∅ := by
    refine eq_empty_of_forall_notMem fun a ha => ?_
    have := (hM 0 a).1 ((mem_filter.1 ha).2 0 (by decide))
    clear ha
    revert a; decide
  have hp3 : 3 ∈ (pass tt 3 s2).M 2 := by
    have hc : combos (List.finRange 5) (3 + 1) = [[0, 1, 2, 3], [0, 1, 2, 4], [0, 1, 3, 4], [0, 2, 3, 4], [1, 2, 3, 4]] := by decide
    rw [pass, hc, List.foldl_cons]
    refine foldl_inv (Q := fun s => 3 ∈ s.M 2) (fun s U h => step_mono s U 2 h) _ _ ?_
    rw [step_unique (s := { s2 with changed := false }) (x := 2) hH1 (by
      show eligible tt (common s2.M [0, 1, 2, 3]) [0, 1, 2, 3] = true
      rw [hcom]
      exact eligible_empty (z := fun v l => fiveT l v) exErr_five hI hr (by decide) (by decide)) (by
      show sinks tt s2.M (common s2.M [0, 1, 2, 3]) [0, 1, 2, 3] = [2]
      rw [hcom]
      exact five_sinks exErr_five hI hr hM)]
    exact mem_union_right _ (by decide)
  obtain ⟨E, hE⟩ := fitData_of_loop hlr
  exact ⟨r.M, E, hE, loop_mono hl3 2 hp3⟩

end Rcd
end CL
