import Verif.Model.CamuvData
import Verif.Props.Camuv
import Verif.Props.RcdHidden
import Verif.Props.LinearPC
import Verif.Proofs.MoralAnc

/-!
# C201, C202: CAM-UV on data of a linear model with ideal tests
-/
namespace CL
namespace Camuv
open Spec Relation Finset
variable {N n m : Nat} {K : Type} [LinearOrder K]

section
variable {ι : Type} [Fintype ι] {e : ι → Fin N → ℝ} {tv : Fin n → ι → ℝ} {V : Fin n → Finset (Fin n) → ι → ℝ} {t : Tests n K}

/-- no common error -/
def Disj (a b : ι → ℝ) : Prop := ∀ i, a i = 0 ∨ b i = 0

/-- the p-values in terms of vectors `V v S` for the residual of `v` on `S` -/
structure VT (t : Tests n K) (e : ι → Fin N → ℝ) (tv : Fin n → ι → ℝ) (V : Fin n → Finset (Fin n) → ι → ℝ) : Prop where
  form : ∀ v S, ∃ β : Fin n → ℝ, ∀ j, V v S j = tv v j - ∑ h ∈ S, β h * tv h j
  orth : ∀ v S, ∀ h ∈ S, ip e (V v S) (tv h) = 0
  pos : ∀ v S w S', t.alpha < t.pair (v, S) (w, S') ↔ Disj (V v S) (V w S')
  neg : ∀ v S w S', t.pair (v, S) (w, S') < t.alpha ↔ ¬ Disj (V v S) (V w S')
  multi : ∀ c S Q Y, t.alpha < t.multi (c, S) Q Y ↔ ∀ p ∈ Q, Disj (V c S) (V p (Y p))
  zero : t.zero ≤ t.alpha

theorem exists_vt (he : Errors e) {data : Fin N → Fin n → ℝ} (hr : Rep data e tv) {ct : ColTests N K} (hi : IdealPvalues e ct.pair ct.multi ct.alpha)
    (hz : ct.zero ≤ ct.alpha) (enum : Finset (Fin n) → List (Fin n)) (h1 : ∀ S, (enum S).Nodup) (h2 : ∀ S x, x ∈ enum S ↔ x ∈ S) :
    ∃ V, VT (testsOf ct enum h1 h2 data) e tv V ∧ ∀ v S, ∃ c, Rcd.resid data v S = comb e (V v S) c := by
  have h := fun H => Rcd.resid_vec he hr H
  choose A hA hB hC using h
  choose c hc using hA
  have hnd : ∀ {a b : ι → ℝ}, ¬ Disj a b → ∃ i, a i ≠ 0 ∧ b i ≠ 0 := by
    intro a b h
    unfold Disj at h
    push Not at h
    exact h
  have pos : ∀ v S w S', ct.alpha < ct.pair (Rcd.resid data v S) (Rcd.resid data w S') ↔ Disj (A S v) (A S' w) := by
    intro v S w S'
    rw [hc, hc]
    constructor
    · intro h
      by_contra hn
      exact lt_asymm h (hi.rejects _ _ _ _ (hnd hn))
    · exact hi.accepts _ _ _ _
  have neg : ∀ v S w S', ct.pair (Rcd.resid data v S) (Rcd.resid data w S') < ct.alpha ↔ ¬ Disj (A S v) (A S' w) := by
    intro v S w S'
    constructor
    · intro h hn
      exact lt_asymm h ((pos v S w S').2 hn)
    · intro h
      rw [hc, hc]
      exact hi.rejects _ _ _ _ (hnd h)
  refine ⟨fun v S => A S v, ⟨fun v S => hB S v, fun v S => hC S v, pos, neg, fun x S Q Y => ?_, hz⟩, fun v S => ⟨c S v, hc S v⟩⟩
  show ct.alpha < ct.multi (Rcd.resid data x S) ((enum Q).map fun v => Rcd.resid data v (Y v)) ↔ _
  have hl : ((enum Q).map fun v => Rcd.resid data v (Y v)) = ((enum Q).map fun v => (A (Y v) v, c (Y v) v)).map fun q => comb e q.1 q.2 := by
    rw [List.map_map]
    exact List.map_congr_left fun v _ => hc (Y v) v
  rw [hl, hc]
  constructor
  · intro h p hp
    by_contra hn
    obtain ⟨i, hi'⟩ := hnd hn
    refine lt_asymm h (hi.multi_rejects _ _ _ ⟨_, List.mem_map.2 ⟨p, (h2 Q p).2 hp, rfl⟩, i, hi'⟩)
  · intro h
    refine hi.multi_accepts _ _ _ fun q hq => ?_
    obtain ⟨p, hp, rfl⟩ := List.mem_map.1 hq
    exact h p ((h2 Q p).1 hp)

/-- the residual is determined by its form and orthogonality -/
theorem VT.unique (he : Errors e) (hV : VT t e tv V) {v : Fin n} {S : Finset (Fin n)} {a : ι → ℝ} {β : Fin n → ℝ} (ha : ∀ j, a j = tv v j - ∑ h ∈ S, β h * tv h j)
    (ho : ∀ h ∈ S, ip e a (tv h) = 0) : a = V v S := by
  obtain ⟨β', hβ'⟩ := hV.form v S
  have hd : (fun j => a j + -1 * V v S j) = fun j => ∑ h ∈ S, (β' h - β h) * tv h j := by
    funext j
    rw [ha, hβ']
    simp only [sub_mul, sum_sub_distrib]
    ring
  have hip : ∀ h ∈ S, ip e (tv h) (fun j => a j + -1 * V v S j) = 0 := by
    intro h hh
    have h1 := ho h hh
    have h2 := hV.orth v S h hh
    unfold ip at h1 h2 ⊢
    have : ∀ j, tv h j * (a j + -1 * V v S j) * ss e j = a j * tv h j * ss e j - V v S j * tv h j * ss e j := fun j => by ring
    rw [sum_congr rfl fun j _ => this j, sum_sub_distrib, h1, h2, sub_zero]
  have h0 : ip e (fun j => a j + -1 * V v S j) (fun j => a j + -1 * V v S j) = 0 := by
    conv_lhs => rw [hd]
    rw [ip_smul_sum S (fun h => β' h - β h) tv]
    rw [← hd]
    exact sum_eq_zero fun h hh => by rw [ip_comm, hip h hh, mul_zero]
  funext j
  have := ip_self_zero he h0 j
  linarith

/-! ### soundness of pairs -/

variable {own : Fin n → ι} {anc : Fin n → Fin n → Prop}

/-- Every variable has an error of its own, which only its descendants share. -/
structure Owned (tv : Fin n → ι → ℝ) (own : Fin n → ι) (anc : Fin n → Fin n → Prop) : Prop where
  one : ∀ v, tv v (own v) = 1
  zero : ∀ v w, v ≠ w → ¬ anc v w → tv w (own v) = 0
  trans : ∀ a b c, anc a b → anc b c → anc a c
  irrefl : ∀ a, ¬ anc a a

theorem Owned.above (ho : Owned tv own anc) {h v : Fin n} (ha : anc h v) : tv h (own v) = 0 :=
  ho.zero v h (fun e => ho.irrefl h (e ▸ ha)) fun h' => ho.irrefl h (ho.trans _ _ _ ha h')

theorem VT.own_one (hV : VT t e tv V) (ho : Owned tv own anc) {v : Fin n} {S : Finset (Fin n)} (hS : ∀ h ∈ S, anc h v) : V v S (own v) = 1 := by
  obtain ⟨β, hβ⟩ := hV.form v S
  rw [hβ, ho.one, sum_eq_zero fun h hh => by rw [ho.above (hS h hh), mul_zero], sub_zero]

theorem pair_anc (he : Errors e) (hV : VT t e tv V) (ho : Owned tv own anc) {P : Fin n → Finset (Fin n)} (hP : ∀ i, ∀ j ∈ P i, anc j i) {c j : Fin n}
    (hcj : c ≠ j) (hm : Disj (V c ({j} ∪ P c)) (V j (P j))) (hd : ¬ Disj (V c (P c)) (V j (P j))) : anc j c := by
  by_contra hn
  obtain ⟨β, hβ⟩ := hV.form c ({j} ∪ P c)
  have hjP : j ∉ P c := fun h => hn (hP c j h)
  have hz : ∀ h ∈ P c, tv h (own j) = 0 := fun h hh => ho.zero j h (fun e => hjP (e ▸ hh)) fun h' => hn (ho.trans _ _ _ h' (hP c h hh))
  have hsum : ∀ l, ∑ h ∈ {j} ∪ P c, β h * tv h l = β j * tv j l + ∑ h ∈ P c, β h * tv h l := by
    intro l
    rw [← insert_eq, sum_insert hjP]
  have hbj : β j = 0 := by
    rcases hm (own j) with h | h
    · rw [hβ, hsum, ho.zero j c hcj.symm hn, ho.one, sum_eq_zero fun h hh => by rw [hz h hh, mul_zero]] at h
      linarith
    · rw [hV.own_one ho (hP j)] at h
      exact absurd h one_ne_zero
  refine hd ?_
  rw [← hV.unique he (v := c) (S := P c) (a := V c ({j} ∪ P c)) (β := β) (fun l => by rw [hβ, hsum, hbj]; ring)
    fun h hh => hV.orth c _ h (mem_union_right _ hh)]
  exact hm

/-- recorded parents are ancestors -/
def SoundP (anc : Fin n → Fin n → Prop) (t : Tests n K) (s : St n) : Prop := Sane t s ∧ ∀ i, ∀ j ∈ s.P i, anc j i

theorem erase_pair {a b c : Fin n} (hab : a ≠ b) (hc : c ∈ ({a, b} : Finset (Fin n))) : ∃ j, j ≠ c ∧ ({a, b} : Finset (Fin n)).erase c = {j} := by
  simp only [mem_insert, mem_singleton] at hc
  rcases hc with rfl | rfl
  · exact ⟨b, hab.symm, by ext z; simp only [mem_erase, mem_insert, mem_singleton]; grind⟩
  · exact ⟨a, hab, by ext z; simp only [mem_erase, mem_insert, mem_singleton]; grind⟩

theorem step_soundP (he : Errors e) (hV : VT t e tv V) (ho : Owned tv own anc) {s : St n} (hs : SoundP anc t s) {U : Finset (Fin n)} (hU : U.card = 2) :
    SoundP anc t (step t s U) := by
  refine ⟨step_sane hs.1 U, fun i j hj => ?_⟩
  rcases step_cases (t := t) s U with h | ⟨c, hc, hu, hcc, hm, hd, hne, h⟩
  · rw [h] at hj; exact hs.2 i j hj
  · rw [h, record_P hne] at hj
    split at hj
    · next hi =>
      subst hi
      rcases mem_union.1 hj with hj | hj
      · exact hs.2 i j hj
      · obtain ⟨a, b, hab, rfl⟩ := card_eq_two.1 hU
        obtain ⟨j', hj', hE⟩ := erase_pair hab hc
        rw [hE] at hj hm hd
        rw [mem_singleton] at hj
        subst hj
        rw [hs.1.resid, hV.multi] at hm
        unfold dependentWithoutK at hd
        rw [decide_eq_true_eq, hs.1.resid] at hd
        refine pair_anc he hV ho hs.2 hj'.symm (hm j (mem_singleton_self j)) fun hdj => ?_
        exact hd j (mem_singleton_self j) ((hV.pos _ _ _ _).2 hdj)
    · exact hs.2 i j hj

theorem mem_pairs {U : Finset (Fin n)} (h : U ∈ (combos (List.finRange n) 2).map List.toFinset) : U.card = 2 := by
  obtain ⟨l, hl, rfl⟩ := List.mem_map.1 h
  obtain ⟨h1, h2⟩ := (combos_mem _ _ _).1 hl
  rw [List.toFinset_card_of_nodup ((List.nodup_finRange n).sublist h1), h2]

theorem pass_soundP (he : Errors e) (hV : VT t e tv V) (ho : Owned tv own anc) {s : St n} (hs : SoundP anc t s) : SoundP anc t (pass t 2 s) := by
  have key : ∀ (l : List (Finset (Fin n))) (s : St n), (∀ U ∈ l, U.card = 2) → SoundP anc t s → SoundP anc t (l.foldl (step t) s) := by
    intro l
    induction l with
    | nil => intro s _ h; exact h
    | cons U l ih =>
      intro s hl h
      exact ih _ (fun U' h' => hl U' (List.mem_cons_of_mem _ h')) (step_soundP he hV ho h (hl U (by simp)))
  exact key _ _ (fun U hU => mem_pairs hU) ⟨⟨hs.1.irrefl, hs.1.asymm, hs.1.near, hs.1.resid⟩, hs.2⟩

theorem loop_soundP (he : Errors e) (hV : VT t e tv V) (ho : Owned tv own anc) {maxN : Nat} (hmax : maxN ≤ 2) :
    ∀ (f : Nat) {s r : St n}, SoundP anc t s → loop t maxN f 2 s = some r → SoundP anc t r := by
  intro f
  induction f with
  | zero => intro s r _ h; simp [loop] at h
  | succ f ih =>
    intro s r hs h
    have hp := pass_soundP he hV ho hs
    rw [loop] at h
    split at h
    · exact ih hp h
    · rw [if_pos (by omega)] at h
      cases h
      exact hp

theorem init_soundP : SoundP anc t init := ⟨⟨by simp [init], by simp [init], by simp [init], rfl⟩, by simp [init]⟩

end

/-! ### no hidden variables -/

section
variable {e : Fin n → Fin N → ℝ} {V : Fin n → Finset (Fin n) → Fin n → ℝ} {t : Tests n K} {data : Fin N → Fin n → ℝ} {b0 : Fin n → ℝ} {B T : Fin n → Fin n → ℝ}

theorem owned_of (hac : Acyclic fun p i => B p i ≠ 0) (hT : TotalEffects B T) : Owned (fun v l => T l v) id (Anc B) :=
  ⟨(total_zero hac hT).1, fun v w h => (total_zero hac hT).2 v w h, fun _ _ _ h1 h2 => h1.trans h2, fun a h => hac a h⟩

theorem linear_of_generated (hg : Generated data b0 B e) : LinearModel (fun p i => B p i ≠ 0) data :=
  ⟨b0, B, e, fun _ _ h => not_not.1 h, hg.eqn, hg.errors.mean, hg.errors.pos, hg.errors.orth⟩

theorem ip_error (hT : TotalEffects B T) (a : Fin n → ℝ) (j : Fin n) :
    ip e a (fun l => T l j) = a j * ss e j + ∑ p, B p j * ip e a (fun l => T l p) := by
  have h1 : (fun l => T l j) = fun l => (if l = j then 1 else 0) + ∑ p, B p j * T l p := funext fun l => hT l j
  conv_lhs => rw [h1]
  rw [ip_comm, ip_add, ip_comm (fun l => ∑ p, B p j * T l p) a, ip_smul_sum univ (fun p => B p j) (fun p l => T l p)]
  congr 1
  · unfold ip
    rw [sum_eq_single j]
    · simp
    · intro l _ hl; simp [hl]
    · simp

theorem no_error (hg : Generated data b0 B e) (hT : TotalEffects B T) {a : Fin n → ℝ} {j : Fin n} (hj : ip e a (fun l => T l j) = 0)
    (hp : ∀ p, B p j ≠ 0 → ip e a (fun l => T l p) = 0) : a j = 0 := by
  rw [ip_error hT, sum_eq_zero, add_zero] at hj
  · exact (mul_eq_zero.1 hj).resolve_right (hg.errors.pos j).ne'
  · intro p _
    by_cases h : B p j = 0
    · rw [h, zero_mul]
    · rw [hp p h, mul_zero]

theorem no_errors (hg : Generated data b0 B e) (hT : TotalEffects B T) {a : Fin n → ℝ} {j : Fin n} (h : ∀ l, l = j ∨ Anc B l j → a l = 0) :
    ip e a (fun l => T l j) = 0 := by
  refine sum_eq_zero fun l _ => ?_
  by_cases hl : l = j ∨ Anc B l j
  · rw [h l hl, zero_mul, zero_mul]
  · push Not at hl
    show a l * T l j * ss e l = 0
    rw [(total_zero hg.acyclic hT).2 l j hl.1 hl.2, mul_zero, zero_mul]

theorem residual_V (hg : Generated data b0 B e) (hT : TotalEffects B T) (hV : VT t e (fun v l => T l v) V) {v : Fin n} {S : Finset (Fin n)} {u : Fin N → ℝ}
    (hu : Residual data v S u) : u = comb e (V v S) 0 := by
  obtain ⟨c0, b, hb⟩ := hu.1
  obtain ⟨h1, h2⟩ := residual_comb hg.errors (rep_of_generated hg hT) hu hb
  rw [h1, hV.unique hg.errors (fun j => rfl) h2]

theorem ip_V {tv : Fin n → Fin n → ℝ} (hV : VT t e tv V) (c k : Fin n) (S : Finset (Fin n)) : ip e (V c S) (V k S) = ip e (V c S) (tv k) := by
  obtain ⟨β, hβ⟩ := hV.form k S
  have h1 : tv k = fun j => V k S j + ∑ h ∈ S, β h * tv h j := by
    funext j
    rw [hβ]; ring
  conv_rhs => rw [h1]
  rw [ip_comm _ (fun j => V k S j + ∑ h ∈ S, β h * tv h j), ip_add, ip_comm (fun j => ∑ h ∈ S, β h * tv h j), ip_smul_sum S β tv, ip_comm (V k S), sum_eq_zero, add_zero]
  intro h hh
  rw [hV.orth c S h hh, mul_zero]

theorem V_ne (hg : Generated data b0 B e) (hT : TotalEffects B T) (hV : VT t e (fun v l => T l v) V) {v : Fin n} {S : Finset (Fin n)} (hv : v ∉ S) :
    0 < ∑ k, comb e (V v S) 0 k ^ 2 := by
  have h1 : ∑ k, comb e (V v S) 0 k ^ 2 = ip e (V v S) (V v S) := by
    rw [← sum_comb_mul hg.errors (V v S) (V v S) 0]
    exact sum_congr rfl fun k _ => sq _
  rw [h1]
  have h0 : 0 ≤ ip e (V v S) (V v S) := sum_nonneg fun l _ => mul_nonneg (mul_self_nonneg _) (hg.errors.pos l).le
  refine lt_of_le_of_ne h0 fun h => ?_
  have hz := ip_self_zero hg.errors h.symm
  obtain ⟨β, hβ⟩ := hV.form v S
  have := total_indep hg.acyclic hT (γ := fun w => (if w = v then 1 else 0) - if w ∈ S then β w else 0) fun l => by
    have h2 := hz l
    rw [hβ] at h2
    simp only [sub_mul, ite_mul, one_mul, zero_mul, sum_sub_distrib]
    rw [sum_ite_eq' univ v, if_pos (mem_univ _), ← sum_filter]
    rw [filter_mem_eq_inter, univ_inter]
    exact h2
  have h3 := this v
  simp [hv] at h3

theorem dsep_of_orth (hg : Generated data b0 B e) (hT : TotalEffects B T) (hV : VT t e (fun v l => T l v) V) (hf : FisherZ.FaithfulData (fun p i => B p i ≠ 0) data)
    {c k : Fin n} {S : Finset (Fin n)} (hck : c ≠ k) (hc : c ∉ S) (hk : k ∉ S) (h : ip e (V c S) (fun l => T l k) = 0) :
    DSep (fun p i => B p i ≠ 0) (S : Set (Fin n)) c k := by
  intro hd
  refine hf c k S hck hc hk hd ?_
  obtain ⟨u, hu⟩ := exists_residual data c S
  obtain ⟨w, hw⟩ := exists_residual data k S
  have h1 := residual_V hg hT hV hu
  have h2 := residual_V hg hT hV hw
  refine ⟨u, w, hu, hw, ?_, ?_, ?_⟩
  · rw [h1]; exact V_ne hg hT hV hc
  · rw [h2]; exact V_ne hg hT hV hk
  · rw [h1, h2, sum_comb_mul hg.errors, ip_V hV, h, zero_div]

theorem orth_of_dsep (hg : Generated data b0 B e) (hT : TotalEffects B T) (hV : VT t e (fun v l => T l v) V)
    {c k : Fin n} {S : Finset (Fin n)} (hc : c ∉ S) (hk : k ∉ S) (h : DSep (fun p i => B p i ≠ 0) (S : Set (Fin n)) c k) :
    ip e (V c S) (fun l => T l k) = 0 := by
  obtain ⟨u, hu⟩ := exists_residual data c S
  obtain ⟨w, hw⟩ := exists_residual data k S
  have h1 := (linear_of_generated hg).dsep_orth hg.acyclic hc hk h hu hw
  rwa [residual_V hg hT hV hu, residual_V hg hT hV hw, sum_comb_mul hg.errors, ip_V hV] at h1

/-- the residual of every variable on its recorded parents is its error -/
def Complete (B : Fin n → Fin n → ℝ) (V : Fin n → Finset (Fin n) → Fin n → ℝ) (t : Tests n K) (s : St n) : Prop :=
  SoundP (Anc B) t s ∧ ∀ v l, V v (s.P v) l = if l = v then 1 else 0

theorem complete_step {s : St n} (hV : VT t e (fun v l => T l v) V) (hs : Complete B V t s) (U : Finset (Fin n)) : step t s U = s := by
  rcases step_cases (t := t) s U with h | ⟨c, hc, hu, hcc, hm, hd, hne, h⟩
  · exact h
  · obtain ⟨p, hp⟩ := nonempty_iff_ne_empty.2 hne
    unfold dependentWithoutK at hd
    rw [decide_eq_true_eq, hs.1.1.resid] at hd
    refine absurd ((hV.pos _ _ _ _).2 fun l => ?_) (hd p hp)
    rw [hs.2, hs.2]
    by_cases hl : l = c
    · subst hl
      exact Or.inr (if_neg (mem_erase.1 hp).1.symm)
    · exact Or.inl (if_neg hl)

/-- when no pair changes anything, the residuals are the errors -/
theorem complete_of_stuck (hg : Generated data b0 B e) (hT : TotalEffects B T) (hV : VT t e (fun v l => T l v) V)
    (hf : FisherZ.FaithfulData (fun p i => B p i ≠ 0) data) (he0 : ∀ i j, i ≠ j → (neighbour t i j = true ↔ ¬ Disj (fun l => T l i) (fun l => T l j)))
    {s : St n} (hs : SoundP (Anc B) t s) (hst : ∀ a b, a ≠ b → step t s {a, b} = s) : Complete B V t s := by
  refine ⟨hs, ?_⟩
  have ho := owned_of hg.acyclic hT
  have hz := total_zero hg.acyclic hT
  obtain ⟨r, hr⟩ := acyclic_rank hg.acyclic
  have hrank : ∀ a b, Anc B a b → r a < r b := by
    intro a b hab
    induction hab with
    | single h => exact hr _ _ h
    | tail _ h ih => exact ih.trans (hr _ _ h)
  -- the errors of non-ancestors are absent
  have hout : ∀ v l, l ≠ v → ¬ Anc B l v → V v (s.P v) l = 0 := by
    intro v l hl hn
    obtain ⟨β, hβ⟩ := hV.form v (s.P v)
    rw [hβ, hz.2 l v hl hn, sum_eq_zero, sub_zero]
    intro h hh
    have ha := hs.2 v h hh
    rw [hz.2 l h (fun e => hn (e ▸ ha)) fun h' => hn (h'.trans ha), mul_zero]
  have hone : ∀ v, V v (s.P v) v = 1 := fun v => hV.own_one ho (hs.2 v)
  have main : ∀ d c, r c ≤ d → ∀ l, V c (s.P c) l = if l = c then 1 else 0 := by
    intro d
    induction d using Nat.strong_induction_on with
    | _ d ih =>
      intro c hc
      have hno : ∀ d' j, r j ≤ d' → Anc B j c → V c (s.P c) j = 0 := by
        intro d'
        induction d' using Nat.strong_induction_on with
        | _ d' ih' =>
          intro j hj hjc
          by_contra hne
          have hcj : c ≠ j := fun e => hg.acyclic c (by rw [← e] at hjc; exact hjc)
          have hYj : ∀ l, V j (s.P j) l = if l = j then 1 else 0 := ih (r j) (lt_of_lt_of_le (hrank _ _ hjc) hc) j le_rfl
          have hk : ∀ k, Anc B k j → ip e (V c (s.P c)) (fun l => T l k) = 0 := by
            intro k hkj
            refine no_errors hg hT fun l hl => ?_
            have hlj : Anc B l j := by
              rcases hl with rfl | hl
              · exact hkj
              · exact hl.trans hkj
            exact ih' (r l) (lt_of_lt_of_le (hrank _ _ hlj) hj) l le_rfl (hlj.trans hjc)
          have hjP : j ∉ s.P c := fun h => hne (no_error hg hT (hV.orth c _ j h) fun p hp => hk p (TransGen.single hp))
          have hcP : c ∉ s.P j := fun h => hg.acyclic c ((hs.2 j c h).trans hjc)
          have hcPc : c ∉ s.P c := hs.1.irrefl c
          -- the residual on the parents and `j` has no error of `j`
          have hzero : V c ({j} ∪ s.P c) j = 0 := by
            refine no_error hg hT (hV.orth c _ j (mem_union_left _ (mem_singleton_self j))) fun p hp => ?_
            have hpj : Anc B p j := TransGen.single hp
            by_cases hpP : p ∈ s.P c
            · exact hV.orth c _ p (mem_union_right _ hpP)
            · have hcp : c ≠ p := fun e => hg.acyclic c (TransGen.trans (e ▸ hpj) hjc)
              have h1 := dsep_of_orth hg hT hV hf hcp hcPc hpP (hk p hpj)
              have h2 := DSep.insert_anc hg.acyclic (w := j) (by exact_mod_cast hcPc) (by exact_mod_cast hpP)
                (fun z hz' => (hs.2 c z (by exact_mod_cast hz')).to_reflTransGen) (hpj.trans hjc).to_reflTransGen hjc.to_reflTransGen h1
              refine orth_of_dsep hg hT hV ?_ ?_ ?_
              · rw [mem_union, mem_singleton]; tauto
              · rw [mem_union, mem_singleton]
                rintro (h | h)
                · exact hg.acyclic p (by rw [h] at hpj ⊢; exact hpj)
                · exact hpP h
              · rw [coe_union, coe_singleton]
                exact h2
          have hdisj : Disj (V c ({j} ∪ s.P c)) (V j (s.P j)) := by
            intro l
            by_cases hl : l = j
            · subst hl; exact Or.inl hzero
            · exact Or.inr (by rw [hYj, if_neg hl])
          have hdep : ¬ Disj (V c (s.P c)) (V j (s.P j)) := by
            intro h
            rcases h j with h | h
            · exact hne h
            · rw [hYj, if_pos rfl] at h; exact one_ne_zero h
          -- `c` and `j` are dependent
          have hnear : ∀ x y, (x = c ∧ y = j) ∨ (x = j ∧ y = c) → neighbour t x y = true := by
            have hdcj : ¬ Disj (fun l => T l c) (fun l => T l j) := by
              intro h
              have hip : ip e (fun l => T l c) (fun l => T l j) = 0 := Rcd.ip_disjoint h
              have hVe : (fun l => T l c) = V c ∅ := hV.unique hg.errors (β := 0) (fun l => by simp) (by simp)
              have := dsep_of_orth hg hT hV hf (S := ∅) hcj (by simp) (by simp) (by rw [← hVe]; exact hip)
              obtain ⟨l, hl, -⟩ := directed_walk hg.acyclic (Z := ((∅ : Finset (Fin n)) : Set (Fin n))) hjc.to_reflTransGen (by rintro ⟨z, hz, -⟩; simp at hz)
              exact this (hl.dConn hg.acyclic).symm
            rintro x y (⟨rfl, rfl⟩ | ⟨rfl, rfl⟩)
            · exact (he0 _ _ hcj).2 hdcj
            · exact (he0 _ _ hcj.symm).2 fun h => hdcj fun l => (h l).symm
          have her : ({j, c} : Finset (Fin n)).erase c = {j} := by ext z; simp only [mem_erase, mem_insert, mem_singleton]; grind
          have her' : ({j, c} : Finset (Fin n)).erase j = {c} := by ext z; simp only [mem_erase, mem_insert, mem_singleton]; grind
          have hmc : t.alpha < t.multi (c, {j} ∪ s.P c) {j} s.Y := by
            rw [hs.1.resid, hV.multi]
            intro p hp
            rw [mem_singleton] at hp
            subst hp
            exact hdisj
          obtain ⟨p, hp, hpa⟩ := step_stuck (t := t) (hst j c hcj.symm) hV.zero
            (unidentified_iff.2 fun a ha b hb hab => by
              simp only [mem_insert, mem_singleton] at ha hb
              rcases ha with rfl | rfl <;> rcases hb with rfl | rfl
              · exact absurd rfl hab
              · exact ⟨hcP, hjP⟩
              · exact ⟨hjP, hcP⟩
              · exact absurd rfl hab)
            (c := c) (by simp) (by rw [her]; simp)
            (by
              unfold checkCorrelation
              rw [decide_eq_true_eq, her]
              intro p hp
              rw [mem_singleton] at hp
              exact hnear c p (Or.inl ⟨rfl, hp⟩))
            (by rw [her]; exact hmc)
            (fun c' hc' hcc' _ => by
              simp only [mem_insert, mem_singleton] at hc'
              obtain rfl : c' = j := hc'.resolve_right hcc'
              rw [her, her']
              refine lt_of_le_of_lt (not_lt.1 fun h => ?_) hmc
              rw [hs.1.resid, hV.multi] at h
              have := pair_anc hg.errors hV ho hs.2 hcj.symm (h c (mem_singleton_self c)) fun h' => hdep fun l => (h' l).symm
              exact hg.acyclic c (this.trans hjc))
          rw [her, mem_singleton] at hp
          subst hp
          rw [hs.1.resid] at hpa
          exact hdep ((hV.pos _ _ _ _).1 hpa)
      intro l
      by_cases hl : l = c
      · subst hl; rw [if_pos rfl]; exact hone l
      · rw [if_neg hl]
        by_cases ha : Anc B l c
        · exact hno _ l le_rfl ha
        · exact hout c l hl ha
  exact fun v => main _ v le_rfl

theorem loop_complete (hg : Generated data b0 B e) (hT : TotalEffects B T) (hV : VT t e (fun v l => T l v) V)
    (hf : FisherZ.FaithfulData (fun p i => B p i ≠ 0) data) (he0 : ∀ i j, i ≠ j → (neighbour t i j = true ↔ ¬ Disj (fun l => T l i) (fun l => T l j)))
    {maxN : Nat} : ∀ (f k : Nat) {s r : St n}, loop t maxN f k s = some r → (k = 2 ∧ SoundP (Anc B) t s) ∨ Complete B V t s → Complete B V t r := by
  have ho := owned_of hg.acyclic hT
  intro f
  induction f with
  | zero => intro k s r h; simp [loop] at h
  | succ f ih =>
    intro k s r h hs
    have hq : ∀ {s : St n}, Complete B V t s → Complete B V t { s with changed := false } :=
      fun h => ⟨⟨⟨h.1.1.irrefl, h.1.1.asymm, h.1.1.near, h.1.1.resid⟩, h.1.2⟩, h.2⟩
    rw [loop] at h
    by_cases hch : (pass t k s).changed = true
    · rw [if_pos hch] at h
      rcases hs with ⟨rfl, hs⟩ | hs
      · exact ih 2 h (Or.inl ⟨rfl, pass_soundP hg.errors hV ho hs⟩)
      · exfalso
        have hfix : ∀ l : List (Finset (Fin n)), l.foldl (step t) { s with changed := false } = { s with changed := false } := by
          intro l
          induction l with
          | nil => rfl
          | cons U l ih => rw [List.foldl_cons, complete_step hV (hq hs) U, ih]
        rw [show pass t k s = { s with changed := false } from hfix _] at hch
        cases hch
    · rw [if_neg hch] at h
      obtain ⟨e1, hnew⟩ : (pass t k s) = { s with changed := false } ∧ _ := by
        rcases pass_weight (t := t) k s with h' | ⟨h', -⟩
        · exact h'
        · exact absurd h' hch
      have hc : Complete B V t (pass t k s) := by
        rw [e1]
        rcases hs with ⟨rfl, hs⟩ | hs
        · refine complete_of_stuck hg hT hV hf he0 ⟨⟨hs.1.irrefl, hs.1.asymm, hs.1.near, hs.1.resid⟩, hs.2⟩ fun a b hab => hnew _ ?_
          refine List.mem_map.2 ⟨(List.finRange n).filter fun z => z ∈ ({a, b} : Finset (Fin n)), (combos_mem _ _ _).2 ⟨List.filter_sublist, ?_⟩, ?_⟩
          · rw [← List.toFinset_card_of_nodup ((List.nodup_finRange n).filter _), ← card_pair hab]
            congr 1
            ext z; simp
          · ext z; simp
        · exact hq hs
      split at h
      · cases h; exact hc
      · exact ih _ h (Or.inr hc)

/-- if the residual on a set of ancestors is the error, the set contains the parents, and conversely -/
theorem parents_mem (hg : Generated data b0 B e) (hT : TotalEffects B T) (hV : VT t e (fun v l => T l v) V) {v : Fin n} {S : Finset (Fin n)}
    (h : ∀ l, V v S l = if l = v then 1 else 0) {p : Fin n} (hp : B p v ≠ 0) : p ∈ S := by
  by_contra hn
  obtain ⟨β, hβ⟩ := hV.form v S
  have := total_indep hg.acyclic hT (γ := fun w => B w v - if w ∈ S then β w else 0) fun l => by
    have h2 := h l
    rw [hβ] at h2
    have h3 := hT l v
    simp only [sub_mul, ite_mul, zero_mul, sum_sub_distrib]
    rw [← sum_filter, filter_mem_eq_inter, univ_inter]
    linarith
  have h3 := this p
  simp only [if_neg hn, sub_zero] at h3
  exact hp h3

theorem error_of_parents (hg : Generated data b0 B e) (hT : TotalEffects B T) (hV : VT t e (fun v l => T l v) V) {v : Fin n} {S : Finset (Fin n)}
    (hS : ∀ p, B p v ≠ 0 → p ∈ S) (hA : ∀ s ∈ S, Anc B s v) (l : Fin n) : V v S l = if l = v then 1 else 0 := by
  have := hV.unique hg.errors (v := v) (S := S) (a := fun l => if l = v then 1 else 0) (β := fun p => B p v) (fun l => ?_) fun h hh => ?_
  · rw [← this]
  · have := Rcd.total_split hT hS l
    linarith
  · unfold ip
    refine sum_eq_zero fun l _ => ?_
    by_cases hl : l = v
    · subst hl
      have := Rcd.total_below hg.acyclic hT (hA h hh)
      simp [this]
    · simp [hl]

theorem neighbour_iff {ct : ColTests N K} {enum : Finset (Fin n) → List (Fin n)} {h1 : ∀ S, (enum S).Nodup} {h2 : ∀ S x, x ∈ enum S ↔ x ∈ S}
    (he : Errors e) (hV : VT (testsOf ct enum h1 h2 data) e (fun v l => T l v) V) {i j : Fin n} (hij : i ≠ j) :
    neighbour (testsOf ct enum h1 h2 data) i j = true ↔ ¬ Disj (fun l => T l i) (fun l => T l j) := by
  have hVe : ∀ v, V v ∅ = fun l => T l v := fun v => (hV.unique he (β := 0) (fun l => by simp) (by simp)).symm
  unfold neighbour
  rcases lt_or_gt_of_ne hij with h | h
  · rw [if_pos h, decide_eq_true_eq, hV.neg, hVe, hVe]
  · rw [if_neg h.asymm, if_pos h, decide_eq_true_eq, hV.neg, hVe, hVe]
    exact not_congr ⟨fun h l => (h l).symm, fun h l => (h l).symm⟩

/-- a variable that is not below `v` contributes nothing to a residual of `v` on ancestors -/
theorem V_below (hg : Generated data b0 B e) (hT : TotalEffects B T) (hV : VT t e (fun v l => T l v) V) {j i : Fin n} {S : Finset (Fin n)}
    (hS : ∀ s ∈ S, Anc B s j) (hji : Anc B j i) : V j S i = 0 := by
  obtain ⟨β, hβ⟩ := hV.form j S
  rw [hβ, Rcd.total_below hg.acyclic hT hji, sum_eq_zero, sub_zero]
  intro h hh
  rw [Rcd.total_below hg.acyclic hT ((hS h hh).trans hji), mul_zero]

theorem pruned_sub (P : Fin n → Finset (Fin n)) (i : Fin n) : (List.finRange n).foldl (pruneStep t) P i ⊆ P i := by
  rw [prune_all]
  exact filter_subset _ _

/-- a recorded ancestor that is not a parent is dropped -/
theorem prune_sound (hg : Generated data b0 B e) (hT : TotalEffects B T) (hV : VT t e (fun v l => T l v) V) {s : St n} (hc : Complete B V t s) {i j : Fin n}
    (hj : j ∈ (List.finRange n).foldl (pruneStep t) s.P i) : B j i ≠ 0 := by
  intro hB
  rw [prune_all, mem_filter] at hj
  refine hj.2 ((hV.pos _ _ _ _).2 fun l => ?_)
  have hji := hc.1.2 i j hj.1
  have hpa : ∀ p, B p i ≠ 0 → p ∈ (s.P i).erase j := fun p hp =>
    mem_erase.2 ⟨fun e => hp (by rw [e, hB]), parents_mem hg hT hV (hc.2 i) hp⟩
  rw [error_of_parents hg hT hV hpa (fun s hs => hc.1.2 i s (mem_erase.1 hs).2)]
  by_cases hl : l = i
  · subst hl
    refine Or.inr (V_below hg hT hV (fun s' hs' => ?_) hji)
    split at hs'
    · exact hc.1.2 j s' (pruned_sub _ _ hs')
    · exact hc.1.2 j s' hs'
  · exact Or.inl (if_neg hl)

/-- **C201.** CAM-UV (with linear terms) on data of an acyclic linear model without hidden variables in which d-connected variables are partially correlated, with
ideal p-values and any `num_explanatory_vals`: it ends, and every variable it returns as a parent is a parent. -/
theorem C201_no_false_parents (hg : Generated data b0 B e) (hf : FisherZ.FaithfulData (fun p i => B p i ≠ 0) data) {ct : ColTests N K}
    (hi : IdealPvalues e ct.pair ct.multi ct.alpha) (hz : ct.zero ≤ ct.alpha) (enum : Finset (Fin n) → List (Fin n)) (h1 : ∀ S, (enum S).Nodup)
    (h2 : ∀ S x, x ∈ enum S ↔ x ∈ S) (maxN : Nat) {fuel : Nat} (hfuel : n * n * (maxN + 1) + maxN < fuel) :
    ∃ P L, execute (testsOf ct enum h1 h2 data) maxN fuel = some (P, L) ∧ ∀ i, ∀ j ∈ P i, B j i ≠ 0 := by
  obtain ⟨T, hT⟩ := exists_total hg.acyclic
  obtain ⟨V, hV, -⟩ := exists_vt hg.errors (rep_of_generated hg hT) hi hz enum h1 h2
  obtain ⟨r, hr, hr'⟩ := loop_terminates (t := testsOf ct enum h1 h2 data) maxN (n * n * (maxN + 1) + maxN + 1) 2 init le_rfl (by simp [weight, init])
  have hc := loop_complete hg hT hV hf (fun i j => neighbour_iff hg.errors hV) _ 2 hr (Or.inl ⟨rfl, init_soundP⟩)
  exact ⟨(List.finRange n).foldl (pruneStep (testsOf ct enum h1 h2 data)) r.P, _, by unfold execute findParents; rw [hr' fuel (by omega)]; rfl,
    fun i j hj => prune_sound hg hT hV hc hj⟩

/-- The residual of a variable on its other parents and further ancestors still depends on the error of the parent left out (no exact cancellation). -/
def ParentsVisible (data : Fin N → Fin n → ℝ) (B : Fin n → Fin n → ℝ) (e : Fin n → Fin N → ℝ) : Prop :=
  ∀ i j (S : Finset (Fin n)) u, B j i ≠ 0 → j ∉ S → (∀ p, B p i ≠ 0 → p = j ∨ p ∈ S) → (∀ s ∈ S, Anc B s i) → Residual data i S u → ∑ k, u k * e j k ≠ 0

/-- **C201.** If moreover leaving out a parent always shows in the residual, the parents returned are exactly the parents, and no pair is reported as
having a hidden common cause. -/
theorem C201_recovers (hg : Generated data b0 B e) (hf : FisherZ.FaithfulData (fun p i => B p i ≠ 0) data) (hp : ParentsVisible data B e) {ct : ColTests N K}
    (hi : IdealPvalues e ct.pair ct.multi ct.alpha) (hz : ct.zero ≤ ct.alpha) (enum : Finset (Fin n) → List (Fin n)) (h1 : ∀ S, (enum S).Nodup)
    (h2 : ∀ S x, x ∈ enum S ↔ x ∈ S) (maxN : Nat) {fuel : Nat} (hfuel : n * n * (maxN + 1) + maxN < fuel) :
    ∃ P, execute (testsOf ct enum h1 h2 data) maxN fuel = some (P, []) ∧ ∀ i j, j ∈ P i ↔ B j i ≠ 0 := by
  obtain ⟨T, hT⟩ := exists_total hg.acyclic
  obtain ⟨V, hV, -⟩ := exists_vt hg.errors (rep_of_generated hg hT) hi hz enum h1 h2
  obtain ⟨r, hr, hr'⟩ := loop_terminates (t := testsOf ct enum h1 h2 data) maxN (n * n * (maxN + 1) + maxN + 1) 2 init le_rfl (by simp [weight, init])
  have hc := loop_complete hg hT hV hf (fun i j => neighbour_iff hg.errors hV) _ 2 hr (Or.inl ⟨rfl, init_soundP⟩)
  have hP : ∀ i j, j ∈ (List.finRange n).foldl (pruneStep (testsOf ct enum h1 h2 data)) r.P i ↔ B j i ≠ 0 := by
    intro i j
    refine ⟨prune_sound hg hT hV hc, fun hB => ?_⟩
    rw [prune_all, mem_filter]
    refine ⟨parents_mem hg hT hV (hc.2 i) hB, fun h => ?_⟩
    have hd := (hV.pos _ _ _ _).1 h
    rcases hd j with hd | hd
    · obtain ⟨u, hu⟩ := exists_residual data i ((r.P i).erase j)
      refine hp i j _ u hB (notMem_erase _ _) (fun p hp' => ?_) (fun s hs => hc.1.2 i s (mem_erase.1 hs).2) hu ?_
      · by_cases hpj : p = j
        · exact Or.inl hpj
        · exact Or.inr (mem_erase.2 ⟨hpj, parents_mem hg hT hV (hc.2 i) hp'⟩)
      · have h3 : e j = comb e (fun l => if l = j then 1 else 0) 0 := by
          funext k
          unfold comb
          simp
        rw [residual_V hg hT hV hu, h3, sum_comb_mul hg.errors]
        refine sum_eq_zero fun l _ => ?_
        by_cases hl : l = j
        · subst hl; rw [hd, zero_mul, zero_mul]
        · simp [hl]
    · refine one_ne_zero ((hV.own_one (owned_of hg.acyclic hT) (v := j) fun s hs => ?_).symm.trans hd)
      split at hs
      · exact hc.1.2 j s (pruned_sub _ _ hs)
      · exact hc.1.2 j s hs
  refine ⟨(List.finRange n).foldl (pruneStep (testsOf ct enum h1 h2 data)) r.P, ?_, hP⟩
  have hL : ((List.finRange n).flatMap fun i => ((List.finRange n).filter fun j => decide (i < j) &&
      hidden (testsOf ct enum h1 h2 data) ((List.finRange n).foldl (pruneStep (testsOf ct enum h1 h2 data)) r.P) i j).map fun j => (i, j)) = [] := by
    refine List.eq_nil_iff_forall_not_mem.2 fun q hq => ?_
    simp only [List.mem_flatMap, List.mem_map, List.mem_filter, List.mem_finRange, true_and, Bool.and_eq_true, decide_eq_true_eq] at hq
    obtain ⟨i, j, ⟨hij, hh⟩, -⟩ := hq
    obtain ⟨-, -, -, hh⟩ := (hidden_iff _ hij).1 hh
    refine (hV.neg _ _ _ _).1 hh fun l => ?_
    rw [error_of_parents hg hT hV (fun p hp' => (hP i p).2 hp') fun s hs => TransGen.single ((hP i s).1 hs),
      error_of_parents hg hT hV (fun p hp' => (hP j p).2 hp') fun s hs => TransGen.single ((hP j s).1 hs)]
    by_cases hl : l = i
    · subst hl; exact Or.inr (if_neg hij.ne)
    · exact Or.inl (if_neg hl)
  unfold execute findParents
  rw [hr' fuel (by omega)]
  simp only [Option.map_some, hL]

/-- ideal p-values exist for all errors -/
theorem exists_pvalues {m : Nat} {e : Fin m → Fin N → ℝ} (he : Errors e) : ∃ ct : ColTests N Nat, IdealPvalues e ct.pair ct.multi ct.alpha ∧ ct.zero ≤ ct.alpha := by
  classical
  refine ⟨⟨fun u v => if ∃ a c a' c', u = comb e a c ∧ v = comb e a' c' ∧ Disj a a' then 2 else 0,
    fun u L => if ∃ a c, u = comb e a c ∧ ∀ v ∈ L, ∃ a' c', v = comb e a' c' ∧ Disj a a' then 2 else 0, 1, 0⟩, ⟨?_, ?_, ?_, ?_⟩, by simp⟩
  · intro a c a' c' h
    dsimp only
    rw [if_pos ⟨a, c, a', c', rfl, rfl, h⟩]; decide
  · rintro a c a' c' ⟨i, h1, h2⟩
    dsimp only
    rw [if_neg]
    · decide
    · rintro ⟨b, d, b', d', e1, e2, hd⟩
      rw [comb_inj he e1] at h1
      rw [comb_inj he e2] at h2
      exact (hd i).elim h1 h2
  · intro a c L h
    dsimp only
    rw [if_pos]
    · decide
    · refine ⟨a, c, rfl, fun v hv => ?_⟩
      obtain ⟨q, hq, rfl⟩ := List.mem_map.1 hv
      exact ⟨q.1, q.2, rfl, h q hq⟩
  · rintro a c L ⟨q, hq, i, h1, h2⟩
    dsimp only
    rw [if_neg]
    · decide
    · rintro ⟨b, d, e1, hd⟩
      obtain ⟨b', d', e2, hd⟩ := hd _ (List.mem_map.2 ⟨q, hq, rfl⟩)
      rw [comb_inj he e1] at h1
      rw [comb_inj he e2] at h2
      exact (hd i).elim h1 h2

end

/-! ### hidden variables -/

/-- **C202.** An acyclic linear model of which only the variables `o v` are observed, ideal p-values, at most two variables at a time: every parent that CAM-UV
returns is an ancestor in the full model, with any hidden variables and whether or not effects cancel, and the returned graph has no directed cycle. -/
theorem C202_pairs_sound {full : Fin N → Fin m → ℝ} {b0 : Fin m → ℝ} {B : Fin m → Fin m → ℝ} {e : Fin m → Fin N → ℝ} {o : Fin n → Fin m}
    (hg : Generated full b0 B e) (ho : Function.Injective o) {ct : ColTests N K} (hi : IdealPvalues e ct.pair ct.multi ct.alpha) (hz : ct.zero ≤ ct.alpha)
    (enum : Finset (Fin n) → List (Fin n)) (h1 : ∀ S, (enum S).Nodup) (h2 : ∀ S x, x ∈ enum S ↔ x ∈ S) {maxN : Nat} (hmax : maxN ≤ 2) {fuel : Nat}
    {P : Fin n → Finset (Fin n)} {L : List (Fin n × Fin n)} (h : execute (testsOf ct enum h1 h2 fun k v => full k (o v)) maxN fuel = some (P, L)) :
    (∀ i, ∀ j ∈ P i, Anc B (o j) (o i)) ∧ Acyclic fun j i => j ∈ P i := by
  obtain ⟨T, hT⟩ := exists_total hg.acyclic
  obtain ⟨V, hV, -⟩ := exists_vt hg.errors (Rcd.rep_observed hg hT o) hi hz enum h1 h2
  have hown : Owned (fun v l => T l (o v)) o (fun a b => Anc B (o a) (o b)) :=
    ⟨fun v => (total_zero hg.acyclic hT).1 (o v), fun v w hvw => (total_zero hg.acyclic hT).2 _ _ fun h => hvw (ho h), fun _ _ _ h1 h2 => h1.trans h2,
      fun a h => hg.acyclic _ h⟩
  unfold execute findParents at h
  rw [Option.map_map, Option.map_eq_some_iff] at h
  obtain ⟨r, hr, hP⟩ := h
  simp only [Function.comp, Prod.mk.injEq] at hP
  have hs := loop_soundP hg.errors hV hown hmax _ init_soundP hr
  have hA : ∀ i, ∀ j ∈ P i, Anc B (o j) (o i) := by
    intro i j hj
    rw [← hP.1] at hj
    exact hs.2 i j (pruned_sub _ _ hj)
  refine ⟨hA, fun x hx => hg.acyclic (o x) ?_⟩
  have : ∀ a b, TransGen (fun j i => j ∈ P i) a b → Anc B (o a) (o b) := by
    intro a b hab
    induction hab with
    | single h => exact hA _ _ h
    | tail _ h ih => exact ih.trans (hA _ _ h)
  exact this x x hx

/-! ### cases -/

/-- `0 → 2 ← 1` -/
def colB (p i : Fin 3) : ℝ := if p ≠ 2 ∧ i = 2 then 1 else 0

theorem colB_ne : (fun p i => colB p i ≠ 0) = FisherZ.exD := by
  funext p i
  unfold colB FisherZ.exD
  simp

theorem col_generated : Generated (FisherZ.cols 3 FisherZ.exLin) (fun _ => 0) colB FisherZ.exErr := by
  refine ⟨⟨?_, ?_, ?_⟩, by rw [colB_ne]; exact FisherZ.exD_acyclic, ?_⟩
  · intro i
    fin_cases i <;> simp [Fin.sum_univ_succ, FisherZ.exErr] <;> norm_num
  · intro i
    fin_cases i <;> simp [Fin.sum_univ_succ, FisherZ.exErr] <;> norm_num
  · intro i j hij
    fin_cases i <;> fin_cases j <;> first | exact absurd rfl hij | (simp [Fin.sum_univ_succ, FisherZ.exErr] <;> norm_num)
  · intro k i
    fin_cases i <;> simp [Fin.sum_univ_succ, FisherZ.cols, FisherZ.exLin, colB]

theorem col_anc {a b : Fin 3} (h : Anc colB a b) : a ≠ 2 := by
  induction h with
  | single h => exact ((congrFun (congrFun colB_ne _) _).mp h).1
  | tail _ _ ih => exact ih

theorem col_visible : ParentsVisible (FisherZ.cols 3 FisherZ.exLin) colB FisherZ.exErr := by
  intro i j S u hB hj hp hS hu
  obtain ⟨hj2, rfl⟩ : j ≠ 2 ∧ i = 2 := (congrFun (congrFun colB_ne _) _).mp hB
  have h2 : (2 : Fin 3) ∉ S := fun h => col_anc (hS 2 h) rfl
  have hcase : j = 0 ∧ S = {1} ∨ j = 1 ∧ S = {0} := by
    have hp' : ∀ p : Fin 3, p ≠ 2 → p = j ∨ p ∈ S := fun p hp2 => hp p (by simp [colB, hp2])
    clear hu hp hB hS
    revert j S
    decide
  rcases hcase with ⟨rfl, rfl⟩ | ⟨rfl, rfl⟩
  · have hr : Residual (FisherZ.cols 3 FisherZ.exLin) 2 {1} fun k => FisherZ.cols 3 FisherZ.exLin k 2 - 1 * FisherZ.cols 3 FisherZ.exLin k 1 := by
      refine FisherZ.ex_residual 2 1 1 ?_ ?_ <;> simp [Fin.sum_univ_succ, FisherZ.cols, FisherZ.exLin, FisherZ.exErr] <;> norm_num
    rw [hu.unique hr]
    simp [Fin.sum_univ_succ, FisherZ.cols, FisherZ.exLin, FisherZ.exErr]
    try norm_num
  · have hr : Residual (FisherZ.cols 3 FisherZ.exLin) 2 {0} fun k => FisherZ.cols 3 FisherZ.exLin k 2 - 1 * FisherZ.cols 3 FisherZ.exLin k 0 := by
      refine FisherZ.ex_residual 2 0 1 ?_ ?_ <;> simp [Fin.sum_univ_succ, FisherZ.cols, FisherZ.exLin, FisherZ.exErr] <;> norm_num
    rw [hu.unique hr]
    simp [Fin.sum_univ_succ, FisherZ.cols, FisherZ.exLin, FisherZ.exErr]
    try norm_num

/-- The eight samples of the collider meet every hypothesis of C201: CAM-UV returns `P[2] = {0, 1}` and no hidden pair. -/
theorem C201_example : ∃ ct : ColTests 8 Nat, IdealPvalues FisherZ.exErr ct.pair ct.multi ct.alpha ∧ ∃ P, execute (testsOf ct sortEnum
    (fun _ => (List.nodup_finRange 3).filter _) (fun S x => by simp [sortEnum]) (FisherZ.cols 3 FisherZ.exLin)) 3 40 = some (P, []) ∧ P 0 = ∅ ∧ P 1 = ∅ ∧ P 2 = {0, 1} := by
  obtain ⟨ct, hi, hz⟩ := exists_pvalues col_generated.errors
  refine ⟨ct, hi, ?_⟩
  obtain ⟨P, h1, h2⟩ := C201_recovers col_generated (by rw [colB_ne]; exact FisherZ.exLin_faithful) col_visible hi hz sortEnum
    (fun _ => (List.nodup_finRange 3).filter _) (fun S x => by simp [sortEnum]) 3 (fuel := 40) (by norm_num)
  refine ⟨P, h1, ?_, ?_, ?_⟩ <;>
  · ext j
    rw [h2]
    fin_cases j <;> simp [colB]

/-- C202 applies to the collider with its variable 1 hidden: CAM-UV ends on the columns of 0 and 2, and every parent it returns is an ancestor. -/
theorem C202_example : ∃ ct : ColTests 8 Nat, IdealPvalues FisherZ.exErr ct.pair ct.multi ct.alpha ∧ ∃ P L, execute (testsOf ct (fun S : Finset (Fin 2) => (List.finRange 2).filter (· ∈ S))
    (fun _ => (List.nodup_finRange 2).filter _) (fun S x => by simp) (fun k v => FisherZ.cols 3 FisherZ.exLin k (![0, 2] v))) 2 20 = some (P, L) ∧
    0 ∉ P 0 ∧ 1 ∉ P 0 ∧ 1 ∉ P 1 := by
  obtain ⟨ct, hi, hz⟩ := exists_pvalues col_generated.errors
  refine ⟨ct, hi, ?_⟩
  obtain ⟨P0, P, L, h1, -⟩ := C86_execute (testsOf ct (fun S : Finset (Fin 2) => (List.finRange 2).filter (· ∈ S))
    (fun _ => (List.nodup_finRange 2).filter _) (fun S x => by simp) (fun k v => FisherZ.cols 3 FisherZ.exLin k (![0, 2] v))) 2
  have h := h1 20 (by norm_num)
  have hs := (C202_pairs_sound (o := ![0, 2]) col_generated (by decide) hi hz _ _ _ le_rfl h).1
  have hanc : ∀ {a b : Fin 3}, Anc colB a b → b = 2 := by
    intro a b hab
    induction hab with
    | single h => exact ((congrFun (congrFun colB_ne _) _).mp h).2
    | tail _ h _ => exact ((congrFun (congrFun colB_ne _) _).mp h).2
  refine ⟨P, L, h, fun h0 => ?_, fun h0 => ?_, fun h0 => ?_⟩
  · exact absurd (hanc (hs 0 0 h0)) (by decide)
  · exact absurd (hanc (hs 0 1 h0)) (by decide)
  · exact col_anc (hs 1 1 h0) rfl

end Camuv
end CL
