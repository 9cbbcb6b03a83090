import Verif.Model.GraspExact
import Verif.Props.Grasp
import Verif.Props.OrderConsistent

/-!
# C203, C204: GRaSP as it is written
-/
namespace CL
namespace Perm
open Spec Ges
variable {p : Nat} {K : Type} [AddCommGroup K] [LinearOrder K]

/-! ### The program with list objects does what the relation `Dfs` allows -/

/-- different variables have different list objects, all in use, and lists have at most `p` entries -/
structure GS.Inv (s : GS p K) : Prop where
  inj : Function.Injective s.ref
  lt : ∀ v, s.ref v < s.next
  short : ∀ r, (s.heap r).length ≤ p

theorem ofOrder_view (o : Order p K) (t : Nat) : (GS.ofOrder o t).view = o := by
  unfold GS.view GS.ofOrder
  simp

theorem ofOrder_inv {o : Order p K} (h : ∀ v, (o.parents v).length ≤ p) (t : Nat) : (GS.ofOrder o t).Inv := by
  refine ⟨fun a b h => Fin.ext h, fun v => v.isLt, fun r => ?_⟩
  simp only [GS.ofOrder]
  split
  · exact h _
  · simp

theorem GS.Inv.tuckX {s : GS p K} (h : s.Inv) (i j : Nat) : (tuckX s i j).Inv := ⟨h.inj, h.lt, h.short⟩
theorem tuckX_view (s : GS p K) (i j : Nat) : (tuckX s i j).view = tuck s.view i j := rfl
theorem GS.Inv.tick {s : GS p K} (h : s.Inv) (t : Nat) : ({ s with t := t } : GS p K).Inv := ⟨h.inj, h.lt, h.short⟩

theorem trParents_short (sc : Fin p → Finset (Fin p) → K) (v : Fin p) (pre : List (Fin p)) : (trParents sc v pre).length ≤ p := by
  have h := (C61_trace_result sc v pre).1
  have h' : (trParents sc v pre).toFinset.card ≤ (Finset.univ : Finset (Fin p)).card := Finset.card_le_univ _
  rw [List.toFinset_card_of_nodup h] at h'
  simpa using h'

/-- overwriting the list object of `z` changes the parents of `z` only -/
theorem GS.Inv.put_view {s : GS p K} (h : s.Inv) (z : Fin p) (l : List (Fin p)) :
    (fun v => set1 s.heap (s.ref z) l (s.ref v)) = set1 s.view.parents z l := by
  funext v
  simp only [set1]
  by_cases hv : v = z
  · subst hv; simp
  · rw [if_neg hv, if_neg (fun e => hv (h.inj e))]; rfl

theorem GS.Inv.put {s : GS p K} (h : s.Inv) (r : Nat) {l : List (Fin p)} (hl : l.length ≤ p) (sc : Fin p → K) (t : Nat) :
    ({ s with heap := set1 s.heap r l, scores := sc, t := t } : GS p K).Inv := by
  refine ⟨h.inj, h.lt, fun r' => ?_⟩
  simp only [set1]
  split
  · exact hl
  · exact h.short r'

theorem updateX_fold (sc : Fin p → Finset (Fin p) → K) (ks : List Nat) : ∀ (s : GS p K) (a b : K), s.Inv →
    (ks.foldl (updateStepX sc) (s, a, b)).1.Inv ∧
    ((ks.foldl (updateStepX sc) (s, a, b)).1.view, (ks.foldl (updateStepX sc) (s, a, b)).2) = ks.foldl (updateStep sc) (s.view, a, b) := by
  induction ks with
  | nil => intro s a b h; exact ⟨h, rfl⟩
  | cons k ks ih =>
    intro s a b h
    rw [List.foldl_cons, List.foldl_cons]
    cases hk : s.order[k]? with
    | none =>
      have h1 : updateStepX sc (s, a, b) k = (s, a, b) := by simp [updateStepX, hk]
      have h2 : updateStep sc (s.view, a, b) k = (s.view, a, b) := by simp [updateStep, GS.view, hk]
      rw [h1, h2]; exact ih s a b h
    | some z =>
      have h1 : updateStepX sc (s, a, b) k = ((⟨s.order, s.ref, set1 s.heap (s.ref z) (trParents sc z (s.order.take k)), s.next,
          set1 s.scores z (trScore sc z (s.order.take k)), s.t⟩ : GS p K), a + s.scores z, b + trScore sc z (s.order.take k)) := by
        simp [updateStepX, hk]
      have h2 : updateStep sc (s.view, a, b) k = (⟨s.order, set1 s.view.parents z (trParents sc z (s.order.take k)),
          set1 s.scores z (trScore sc z (s.order.take k))⟩, a + s.scores z, b + trScore sc z (s.order.take k)) := by
        simp [updateStep, GS.view, hk]
      rw [h1, h2]
      have hi := h.put (s.ref z) (trParents_short sc z (s.order.take k)) (set1 s.scores z (trScore sc z (s.order.take k))) s.t
      obtain ⟨i1, i2⟩ := ih _ (a + s.scores z) (b + trScore sc z (s.order.take k)) hi
      refine ⟨i1, ?_⟩
      rw [i2]
      congr 2
      unfold GS.view
      simp only [Order.mk.injEq, true_and, and_true]
      exact h.put_view z _

theorem updateX_spec (sc : Fin p → Finset (Fin p) → K) {s : GS p K} (h : s.Inv) (i j : Nat) :
    (updateX sc s i j).1.Inv ∧ (updateX sc s i j).1.view = (update sc s.view i j).1 ∧ (updateX sc s i j).2 = (update sc s.view i j).2 := by
  obtain ⟨h1, h2⟩ := updateX_fold sc (List.range' j (i + 1 - j)) s 0 0 h
  unfold updateX update
  simp only
  rw [← h2]
  exact ⟨h1, rfl, rfl⟩

theorem restoreX_spec {old s : GS p K} (ho : old.Inv) (h : s.Inv) (i j : Nat) :
    (restoreX old s i j).Inv ∧ (restoreX old s i j).view = restore old.view s.view i j := by
  unfold restoreX restore
  generalize List.range' j (i + 1 - j) = ks
  induction ks generalizing s with
  | nil => exact ⟨h, rfl⟩
  | cons k ks ih =>
    rw [List.foldl_cons, List.foldl_cons]
    cases hk : old.order[k]? with
    | none =>
      have h1 : restoreStepX old s k = s := by simp [restoreStepX, hk]
      have h2 : restoreStep old.view s.view k = s.view := by simp [restoreStep, GS.view, hk]
      rw [h1, h2]; exact ih h
    | some z =>
      have h1 : restoreStepX old s k = ⟨s.order.set k z, set1 s.ref z s.next, set1 s.heap s.next (old.heap (old.ref z)), s.next + 1,
          set1 s.scores z (old.scores z), s.t⟩ := by simp [restoreStepX, hk]
      have h2 : restoreStep old.view s.view k = ⟨s.order.set k z, set1 s.view.parents z (old.view.parents z), set1 s.scores z (old.scores z)⟩ := by
        simp [restoreStep, GS.view, hk]
      have hi : (restoreStepX old s k).Inv := by
        rw [h1]
        refine ⟨fun a b hab => ?_, fun v => ?_, fun r => ?_⟩
        · simp only [set1] at hab
          split at hab <;> split at hab
          · rename_i e1 e2; rw [e1, e2]
          · exact absurd hab.symm (ne_of_lt (h.lt b))
          · exact absurd hab (ne_of_lt (h.lt a))
          · exact h.inj hab
        · simp only [set1]
          split
          · omega
          · exact lt_trans (h.lt v) (Nat.lt_succ_self _)
        · simp only [set1]
          split
          · exact ho.short _
          · exact h.short r
      obtain ⟨i1, i2⟩ := ih hi
      refine ⟨i1, ?_⟩
      rw [i2]
      congr 1
      rw [h1, h2]
      unfold GS.view
      simp only [Order.mk.injEq, true_and, and_true]
      funext v
      simp only [set1]
      by_cases hv : v = z
      · subst hv; simp
      · simp [hv, ne_of_lt (h.lt v)]

/-- What a part of the loop may do, in terms of `Dfs`: return `True`, or go on from `o'`. -/
def Leads (sc : Fin p → Finset (Fin p) → K) (eps : K) (n : Nat) (o : Order p K) (b : Bool) (o' : Order p K) : Prop :=
  (b = true → Dfs sc eps n o true o') ∧ (b = false → ∀ b' o'', Dfs sc eps n o' b' o'' → Dfs sc eps n o b' o'')

theorem Leads.refl {sc : Fin p → Finset (Fin p) → K} {eps : K} {n : Nat} (o : Order p K) : Leads sc eps n o false o :=
  ⟨fun h => Bool.noConfusion h, fun _ _ _ h => h⟩

theorem Leads.trans {sc : Fin p → Finset (Fin p) → K} {eps : K} {n : Nat} {o o1 o2 : Order p K} {b : Bool} (h : Leads sc eps n o false o1)
    (h' : Leads sc eps n o1 b o2) : Leads sc eps n o b o2 :=
  ⟨fun hb => h.2 rfl _ _ (h'.1 hb), fun hb _ _ hd => h.2 rfl _ _ (h'.2 hb _ _ hd)⟩

theorem Leads.dfs {sc : Fin p → Finset (Fin p) → K} {eps : K} {n : Nat} {o o' : Order p K} {b : Bool} (h : Leads sc eps n o b o') :
    Dfs sc eps n o b o' := by
  cases b with
  | true => exact h.1 rfl
  | false => exact h.2 rfl _ _ (Dfs.done _ _)

/-- the recursive call behaves (`n` is the depth of the caller) -/
def RecOk (sc : Fin p → Finset (Fin p) → K) (eps : K) (n : Nat) (deep : Bool) (rec : GS p K → Flips p → List (Flips p) → Bool × GS p K) : Prop :=
  deep = true → ∃ m, n = m + 1 ∧ ∀ s fl hist, s.Inv → Dfs sc eps m s.view (rec s fl hist).1 (rec s fl hist).2.view ∧ (rec s fl hist).2.Inv

theorem attempt_spec {sc : Fin p → Finset (Fin p) → K} {eps : K} {n : Nat} {deep : Bool}
    {rec : GS p K → Flips p → List (Flips p) → Bool × GS p K} (hr : RecOk sc eps n deep rec) (hist : List (Flips p)) {i : Nat} (hi : i < p)
    (x : Fin p) {s : GS p K} (h : s.Inv) (fl : Flips p) :
    (attempt sc eps deep rec hist i x s fl).2.1.Inv ∧
    Leads sc eps n s.view (attempt sc eps deep rec hist i x s fl).1 (attempt sc eps deep rec hist i x s fl).2.1.view := by
  unfold attempt
  simp only
  generalize hj : s.order.idxOf x = j
  obtain ⟨u1, u2, u3⟩ := updateX_spec sc (h.tuckX i j) i j
  rw [tuckX_view] at u2 u3
  generalize updateX sc (tuckX s i j) i j = r at u1 u2 u3
  by_cases h1 : eps < r.2
  · rw [if_pos h1]
    refine ⟨u1, fun _ => ?_, fun hb => Bool.noConfusion hb⟩
    simp only
    rw [u2]
    exact Dfs.improve i j hi (u3 ▸ h1)
  rw [if_neg h1]
  by_cases h2 : -eps < r.2
  · rw [if_pos h2]
    generalize hfl : newFlips r.1 i x fl = fl'
    by_cases h3 : fl' ≠ ∅ ∧ fl' ∉ hist ∧ deep = true
    · rw [if_pos h3]
      obtain ⟨m, rfl, hm⟩ := hr h3.2.2
      obtain ⟨d1, d2⟩ := hm r.1 fl' (hist ++ [fl']) u1
      rw [u2] at d1
      generalize rec r.1 fl' (hist ++ [fl']) = d at d1 d2
      by_cases h4 : d.1 = true
      · rw [if_pos h4]
        rw [h4] at d1
        exact ⟨d2, fun _ => Dfs.deeper i j hi (u3 ▸ h2) d1, fun hb => Bool.noConfusion hb⟩
      · rw [if_neg h4]
        rw [Bool.eq_false_iff.2 h4] at d1
        obtain ⟨r1, r2⟩ := restoreX_spec h d2 i j
        refine ⟨r1, fun hb => Bool.noConfusion hb, fun _ b' o'' hd => ?_⟩
        simp only [r2] at hd
        exact Dfs.deeperBack i j hi (u3 ▸ h2) d1 hd
    · rw [if_neg h3]
      simp only [Bool.false_eq_true, if_false]
      obtain ⟨r1, r2⟩ := restoreX_spec h u1 i j
      refine ⟨r1, fun hb => Bool.noConfusion hb, fun _ b' o'' hd => ?_⟩
      simp only [r2, u2] at hd
      exact Dfs.back i j hi hd
  · rw [if_neg h2]
    obtain ⟨r1, r2⟩ := restoreX_spec h u1 i j
    refine ⟨r1, fun hb => Bool.noConfusion hb, fun _ b' o'' hd => ?_⟩
    simp only [r2, u2] at hd
    exact Dfs.back i j hi hd

theorem innerX_spec {sc : Fin p → Finset (Fin p) → K} {eps : K} {n : Nat} {deep : Bool}
    {rec : GS p K → Flips p → List (Flips p) → Bool × GS p K} (hr : RecOk sc eps n deep rec) (hist : List (Flips p)) {i : Nat} (hi : i < p)
    (l f : Nat) : ∀ (q : Nat) (s : GS p K) (fl : Flips p), s.Inv →
    (innerX sc eps deep rec hist i l f q s fl).2.1.Inv ∧
    Leads sc eps n s.view (innerX sc eps deep rec hist i l f q s fl).1 (innerX sc eps deep rec hist i l f q s fl).2.1.view := by
  induction f with
  | zero => intro q s fl h; exact ⟨h, Leads.refl _⟩
  | succ f ih =>
    intro q s fl h
    rw [innerX]
    cases hx : (s.heap l)[q]? with
    | none => exact ⟨h, Leads.refl _⟩
    | some x =>
      simp only [Option.elim_some]
      split
      · exact ih _ _ _ h
      · obtain ⟨a1, a2⟩ := attempt_spec hr hist hi x h fl
        split
        · exact ⟨a1, a2⟩
        · rename_i hf
          rw [Bool.eq_false_iff.2 hf] at a2
          obtain ⟨i1, i2⟩ := ih (q + 1) _ (attempt sc eps deep rec hist i x s fl).2.2 a1
          exact ⟨i1, a2.trans i2⟩

theorem shuffleX_spec {sc : Fin p → Finset (Fin p) → K} {eps : K} {n : Nat} {R : Rand p} (hR : R.Ok) {s : GS p K} (h : s.Inv) (y : Fin p) :
    (shuffleX R s (s.ref y)).Inv ∧ Leads sc eps n s.view false (shuffleX R s (s.ref y)).view := by
  have hp := hR.par s.t (s.heap (s.ref y))
  refine ⟨h.put _ (by rw [hp.length_eq]; exact h.short _) _ _, fun hb => Bool.noConfusion hb, fun _ b' o'' hd => ?_⟩
  refine Dfs.shuffle y (R.par s.t (s.heap (s.ref y))) hp ?_
  have : (shuffleX R s (s.ref y)).view = { s.view with parents := set1 s.view.parents y (R.par s.t (s.heap (s.ref y))) } := by
    unfold shuffleX GS.view
    simp only [Order.mk.injEq, true_and, and_true]
    exact h.put_view y _
  rwa [this] at hd

theorem outerX_spec {sc : Fin p → Finset (Fin p) → K} {eps : K} {n : Nat} {R : Rand p} (hR : R.Ok) {deep : Bool}
    {rec : GS p K → Flips p → List (Flips p) → Bool × GS p K} (hr : RecOk sc eps n deep rec) (hist : List (Flips p)) (is : List Nat)
    (his : ∀ i ∈ is, i < p) : ∀ (s : GS p K) (fl : Flips p), s.Inv →
    (outerX sc eps R deep rec hist is s fl).2.Inv ∧
    Leads sc eps n s.view (outerX sc eps R deep rec hist is s fl).1 (outerX sc eps R deep rec hist is s fl).2.view := by
  induction is with
  | nil => intro s fl h; exact ⟨h, Leads.refl _⟩
  | cons i is ih =>
    intro s fl h
    rw [outerX]
    cases hy : s.order[i]? with
    | none => exact ⟨h, Leads.refl _⟩
    | some y =>
      simp only [Option.elim_some]
      obtain ⟨s1, s2⟩ := shuffleX_spec (sc := sc) (eps := eps) (n := n) hR h y
      obtain ⟨a1, a2⟩ := innerX_spec hr hist (his i List.mem_cons_self) (s.ref y) (p + 1) 0 _ fl s1
      split
      · rename_i ht
        rw [ht] at a2
        exact ⟨a1, s2.trans a2⟩
      · rename_i hf
        rw [Bool.eq_false_iff.2 hf] at a2
        obtain ⟨i1, i2⟩ := ih (fun k hk => his k (List.mem_cons_of_mem _ hk)) _
          (innerX sc eps deep rec hist i (s.ref y) (p + 1) 0 (shuffleX R s (s.ref y)) fl).2.2 a1
        exact ⟨i1, s2.trans (a2.trans i2)⟩

theorem dfsX_spec {sc : Fin p → Finset (Fin p) → K} {eps : K} {R : Rand p} (hR : R.Ok) (d : Nat) : ∀ (s : GS p K) (fl : Flips p) (hist : List (Flips p)),
    s.Inv → Dfs sc eps d s.view (dfsX sc eps R d s fl hist).1 (dfsX sc eps R d s fl hist).2.view ∧ (dfsX sc eps R d s fl hist).2.Inv := by
  have hidx : ∀ t, ∀ i ∈ R.idx t, i < p := fun t i hi => List.mem_range.1 ((hR.idx t).mem_iff.1 hi)
  induction d with
  | zero =>
    intro s fl hist h
    rw [dfsX]
    obtain ⟨o1, o2⟩ := outerX_spec (sc := sc) (eps := eps) (n := 0) hR (deep := false) (rec := fun s _ _ => (false, s))
      (fun hb => Bool.noConfusion hb) hist (R.idx s.t) (hidx _) _ fl (h.tick (s.t + 1))
    exact ⟨o2.dfs, o1⟩
  | succ d ih =>
    intro s fl hist h
    rw [dfsX]
    obtain ⟨o1, o2⟩ := outerX_spec (sc := sc) (eps := eps) (n := d + 1) hR (deep := true) (rec := dfsX sc eps R d)
      (fun _ => ⟨d, rfl, fun s fl hist h => ih s fl hist h⟩) hist (R.idx s.t) (hidx _) _ fl (h.tick (s.t + 1))
    exact ⟨o2.dfs, o1⟩

/-! ### The number of iterations of the inner loop -/

/-- `p + 1` iterations of the inner loop are enough: with more the result is the same. -/
theorem innerX_fuel {sc : Fin p → Finset (Fin p) → K} {eps : K} {n : Nat} {deep : Bool}
    {rec : GS p K → Flips p → List (Flips p) → Bool × GS p K} (hr : RecOk sc eps n deep rec) (hist : List (Flips p)) {i : Nat} (hi : i < p)
    (l f : Nat) : ∀ (f' q : Nat) (s : GS p K) (fl : Flips p), s.Inv → p < q + f → p < q + f' →
    innerX sc eps deep rec hist i l f q s fl = innerX sc eps deep rec hist i l f' q s fl := by
  have none_of : ∀ {q : Nat} {s : GS p K}, s.Inv → p ≤ q → (s.heap l)[q]? = none := fun h hq =>
    List.getElem?_eq_none ((h.short l).trans hq)
  induction f with
  | zero =>
    intro f' q s fl h hf hf'
    cases f' with
    | zero => rfl
    | succ f' => rw [innerX, innerX, none_of h (by omega)]; rfl
  | succ f ih =>
    intro f' q s fl h hf hf'
    cases f' with
    | zero => rw [innerX, innerX, none_of h (by omega)]; rfl
    | succ f' =>
      rw [innerX, innerX]
      cases hx : (s.heap l)[q]? with
      | none => rfl
      | some x =>
        simp only [Option.elim_some]
        split
        · exact ih _ _ _ _ h (by omega) (by omega)
        · split
          · rfl
          · exact ih _ _ _ _ (attempt_spec hr hist hi x h fl).1 (by omega) (by omega)

/-! ### If the shuffles do not depend on their number, neither does the search -/

/-- the state with another value of the shuffle counter -/
def GS.at (s : GS p K) (t : Nat) : GS p K := { s with t := t }

theorem updateX_at (sc : Fin p → Finset (Fin p) → K) (s : GS p K) (t i j : Nat) :
    updateX sc (s.at t) i j = ((updateX sc s i j).1.at t, (updateX sc s i j).2) := by
  unfold updateX
  have key : ∀ (ks : List Nat) (s : GS p K) (a b : K), ks.foldl (updateStepX sc) (s.at t, a, b) =
      ((ks.foldl (updateStepX sc) (s, a, b)).1.at t, (ks.foldl (updateStepX sc) (s, a, b)).2) := by
    intro ks
    induction ks with
    | nil => intro s a b; rfl
    | cons k ks ih =>
      intro s a b
      rw [List.foldl_cons, List.foldl_cons]
      have : updateStepX sc (s.at t, a, b) k = ((updateStepX sc (s, a, b) k).1.at t, (updateStepX sc (s, a, b) k).2) := by
        unfold updateStepX
        cases hk : s.order[k]? <;> simp [GS.at, hk]
      rw [this]
      exact ih _ _ _
  simp only [key]

theorem restoreX_at (old s : GS p K) (t t' i j : Nat) : restoreX (old.at t) (s.at t') i j = (restoreX old s i j).at t' := by
  unfold restoreX
  generalize List.range' j (i + 1 - j) = ks
  induction ks generalizing s with
  | nil => rfl
  | cons k ks ih =>
    rw [List.foldl_cons, List.foldl_cons]
    have : restoreStepX (old.at t) (s.at t') k = (restoreStepX old s k).at t' := by
      unfold restoreStepX
      cases hk : old.order[k]? <;> simp [GS.at, hk]
    rw [this, ih]

/-- the recursive call does not depend on the counter -/
def Steady (rec : GS p K → Flips p → List (Flips p) → Bool × GS p K) : Prop :=
  ∀ s t fl hist, ∃ t', rec (s.at t) fl hist = ((rec s fl hist).1, (rec s fl hist).2.at t')

theorem attempt_at {sc : Fin p → Finset (Fin p) → K} {eps : K} {deep : Bool} {rec : GS p K → Flips p → List (Flips p) → Bool × GS p K}
    (hr : Steady rec) (hist : List (Flips p)) (i : Nat) (x : Fin p) (s : GS p K) (t : Nat) (fl : Flips p) :
    ∃ t', attempt sc eps deep rec hist i x (s.at t) fl =
      ((attempt sc eps deep rec hist i x s fl).1, (attempt sc eps deep rec hist i x s fl).2.1.at t', (attempt sc eps deep rec hist i x s fl).2.2) := by
  unfold attempt
  simp only
  have hj : (s.at t).order.idxOf x = s.order.idxOf x := rfl
  rw [hj]
  generalize s.order.idxOf x = j
  have hu : updateX sc (tuckX (s.at t) i j) i j = ((updateX sc (tuckX s i j) i j).1.at t, (updateX sc (tuckX s i j) i j).2) :=
    updateX_at sc (tuckX s i j) t i j
  rw [hu]
  generalize updateX sc (tuckX s i j) i j = r
  simp only
  have hn : newFlips (r.1.at t) i x fl = newFlips r.1 i x fl := rfl
  rw [hn]
  generalize newFlips r.1 i x fl = fl'
  by_cases h1 : eps < r.2
  · rw [if_pos h1, if_pos h1]; exact ⟨t, rfl⟩
  rw [if_neg h1, if_neg h1]
  by_cases h2 : -eps < r.2
  · rw [if_pos h2, if_pos h2]
    by_cases h3 : fl' ≠ ∅ ∧ fl' ∉ hist ∧ deep = true
    · rw [if_pos h3, if_pos h3]
      obtain ⟨t', ht'⟩ := hr r.1 t fl' (hist ++ [fl'])
      rw [ht']
      simp only
      by_cases h4 : (rec r.1 fl' (hist ++ [fl'])).1 = true
      · rw [if_pos h4, if_pos h4]; exact ⟨t', rfl⟩
      · rw [if_neg h4, if_neg h4, restoreX_at]; exact ⟨t', rfl⟩
    · rw [if_neg h3, if_neg h3]
      simp only [Bool.false_eq_true, if_false]
      rw [restoreX_at]; exact ⟨t, rfl⟩
  · rw [if_neg h2, if_neg h2, restoreX_at]; exact ⟨t, rfl⟩

theorem innerX_at {sc : Fin p → Finset (Fin p) → K} {eps : K} {deep : Bool} {rec : GS p K → Flips p → List (Flips p) → Bool × GS p K}
    (hr : Steady rec) (hist : List (Flips p)) (i l f : Nat) : ∀ (q : Nat) (s : GS p K) (t : Nat) (fl : Flips p),
    ∃ t', innerX sc eps deep rec hist i l f q (s.at t) fl = ((innerX sc eps deep rec hist i l f q s fl).1,
      (innerX sc eps deep rec hist i l f q s fl).2.1.at t', (innerX sc eps deep rec hist i l f q s fl).2.2) := by
  induction f with
  | zero => intro q s t fl; exact ⟨t, rfl⟩
  | succ f ih =>
    intro q s t fl
    rw [innerX, innerX]
    have hh : (s.at t).heap = s.heap := rfl
    have hr' : (s.at t).ref = s.ref := rfl
    rw [hh, hr']
    cases hx : (s.heap l)[q]? with
    | none => exact ⟨t, rfl⟩
    | some x =>
      simp only [Option.elim_some]
      by_cases h1 : hist ≠ [] ∧ (x :: s.heap (s.ref x)).toFinset ≠ (s.heap l).toFinset
      · rw [if_pos h1, if_pos h1]; exact ih _ _ _ _
      · rw [if_neg h1, if_neg h1]
        obtain ⟨t', ht'⟩ := attempt_at (sc := sc) (eps := eps) (deep := deep) hr hist i x s t fl
        rw [ht']
        simp only
        by_cases h2 : (attempt sc eps deep rec hist i x s fl).1 = true
        · rw [if_pos h2, if_pos h2]; exact ⟨t', rfl⟩
        · rw [if_neg h2, if_neg h2]; exact ih _ _ _ _

theorem outerX_at {sc : Fin p → Finset (Fin p) → K} {eps : K} {R : Rand p} (hR : ∀ t, R.par t = R.par 0) {deep : Bool}
    {rec : GS p K → Flips p → List (Flips p) → Bool × GS p K} (hr : Steady rec) (hist : List (Flips p)) (is : List Nat) :
    ∀ (s : GS p K) (t : Nat) (fl : Flips p), ∃ t', outerX sc eps R deep rec hist is (s.at t) fl =
      ((outerX sc eps R deep rec hist is s fl).1, (outerX sc eps R deep rec hist is s fl).2.at t') := by
  induction is with
  | nil => intro s t fl; exact ⟨t, rfl⟩
  | cons i is ih =>
    intro s t fl
    rw [outerX, outerX]
    have ho : (s.at t).order = s.order := rfl
    have hr' : (s.at t).ref = s.ref := rfl
    rw [ho, hr']
    cases hy : s.order[i]? with
    | none => exact ⟨t, rfl⟩
    | some y =>
      simp only [Option.elim_some]
      have hs : shuffleX R (s.at t) (s.ref y) = (shuffleX R s (s.ref y)).at (t + 1) := by
        unfold shuffleX GS.at
        simp only
        rw [hR t, hR s.t]
      rw [hs]
      obtain ⟨t', ht'⟩ := innerX_at (sc := sc) (eps := eps) (deep := deep) hr hist i (s.ref y) (p + 1) 0 (shuffleX R s (s.ref y)) (t + 1) fl
      rw [ht']
      simp only
      by_cases h2 : (innerX sc eps deep rec hist i (s.ref y) (p + 1) 0 (shuffleX R s (s.ref y)) fl).1 = true
      · rw [if_pos h2, if_pos h2]; exact ⟨t', rfl⟩
      · rw [if_neg h2, if_neg h2]; exact ih _ _ _

theorem dfsX_steady (sc : Fin p → Finset (Fin p) → K) (eps : K) {R : Rand p} (hR : ∀ t, R.par t = R.par 0 ∧ R.idx t = R.idx 0) (d : Nat) :
    Steady (dfsX sc eps R d) := by
  induction d with
  | zero =>
    intro s t fl hist
    rw [dfsX, dfsX]
    obtain ⟨t', h⟩ := outerX_at (sc := sc) (eps := eps) (R := R) (fun t => (hR t).1) (deep := false)
      (rec := fun s _ _ => (false, s)) (fun s t _ _ => ⟨t, rfl⟩) hist (R.idx 0) { s with t := s.t + 1 } (t + 1) fl
    refine ⟨t', ?_⟩
    rw [(hR s.t).2, (hR (s.at t).t).2]
    exact h
  | succ d ih =>
    intro s t fl hist
    rw [dfsX, dfsX]
    obtain ⟨t', h⟩ := outerX_at (sc := sc) (eps := eps) (R := R) (fun t => (hR t).1) (deep := true) ih hist (R.idx 0) { s with t := s.t + 1 } (t + 1) fl
    refine ⟨t', ?_⟩
    rw [(hR s.t).2, (hR (s.at t).t).2]
    exact h

theorem roundX_steady (sc : Fin p → Finset (Fin p) → K) (eps : K) {R : Rand p} (hR : ∀ t, R.par t = R.par 0 ∧ R.idx t = R.idx 0) (depth : Nat)
    (o : Order p K) (t : Nat) : (roundX sc eps R depth o t).1 = (roundX sc eps R depth o 0).1 ∧
      (roundX sc eps R depth o t).2.1 = (roundX sc eps R depth o 0).2.1 := by
  obtain ⟨t', h⟩ := dfsX_steady sc eps hR (depth - 1) (GS.ofOrder o 0) t ∅ []
  have ho : (GS.ofOrder o 0).at t = GS.ofOrder o t := rfl
  rw [ho] at h
  unfold roundX
  simp only
  rw [h]
  exact ⟨rfl, rfl⟩

/-! ### C203: the whole program -/

section
variable [IsOrderedAddMonoid K]

theorem Ok.short {sc : Fin p → Finset (Fin p) → K} {o : Order p K} (h : Ok sc o) (v : Fin p) : (o.parents v).length ≤ p := by
  rw [(h.parents v).length_eq]; exact trParents_short sc v _

theorem round_dfs {sc : Fin p → Finset (Fin p) → K} {eps : K} {R : Rand p} (hR : R.Ok) (depth : Nat) {o : Order p K} (h : Ok sc o) (t : Nat) :
    Dfs sc eps (depth - 1) o (roundX sc eps R depth o t).1 (roundX sc eps R depth o t).2.1 := by
  have := (dfsX_spec (sc := sc) (eps := eps) hR (depth - 1) (GS.ofOrder o t) ∅ [] (ofOrder_inv h.short t)).1
  rw [ofOrder_view] at this
  exact this

theorem loop_run {sc : Fin p → Finset (Fin p) → K} {eps : K} (he : 0 ≤ eps) {R : Rand p} (hR : R.Ok) {depth : Nat} (f : Nat) :
    ∀ {o o' : Order p K} {t : Nat}, Ok sc o → graspLoop sc eps R depth f o t = some o' → GraspRun sc eps (depth - 1) o o' := by
  induction f with
  | zero => intro o o' t h hl; exact absurd hl (by simp [graspLoop])
  | succ f ih =>
    intro o o' t h hl
    have hd := round_dfs (eps := eps) hR depth h t
    rw [graspLoop] at hl
    split at hl
    · rename_i ht
      rw [ht] at hd
      exact GraspRun.more _ _ _ hd (ih (dfs_spec he hd h).1 hl)
    · rename_i hf
      rw [Bool.eq_false_iff.2 hf] at hd
      rw [← Option.some.inj hl]
      exact GraspRun.stop _ _ hd

theorem grasp_run {sc : Fin p → Finset (Fin p) → K} {eps : K} (he : 0 ≤ eps) {R : Rand p} (hR : R.Ok) {depth fuel cfuel : Nat} {l : List (Fin p)}
    (hl : l.Perm (List.finRange p)) {o : Order p K} {G : GG.Outcome (GG p)} (h : grasp sc eps R depth l fuel cfuel = some (o, G)) :
    GraspRun sc eps (depth - 1) (graspInit sc l) o ∧ G = (parentsGraph o.parents).dag2cpdag cfuel := by
  unfold grasp at h
  obtain ⟨o', h1, h2⟩ := Option.map_eq_some_iff.1 h
  obtain ⟨rfl, rfl⟩ := Prod.mk.inj h2
  exact ⟨loop_run he hR fuel (ok_init sc hl) h1, rfl⟩

/-- **C203 (result).** Whatever the score, the depth and the shuffles: if `grasp` returns, its final order is a permutation of the variables, every
variable's parents precede it, and the returned graph is the CPDAG of the DAG of these parents. -/
theorem C203_grasp_result {sc : Fin p → Finset (Fin p) → K} {eps : K} (he : 0 ≤ eps) {R : Rand p} (hR : R.Ok) {depth fuel cfuel : Nat}
    (hcf : p * p + p < cfuel) {l : List (Fin p)} (hl : l.Perm (List.finRange p)) {o : Order p K} {G : GG.Outcome (GG p)}
    (h : grasp sc eps R depth l fuel cfuel = some (o, G)) :
    o.order.Perm (List.finRange p) ∧ (∀ a b, a ∈ o.parents b → o.order.idxOf a < o.order.idxOf b) ∧ (∀ v, o.scores v = sc v (o.parents v).toFinset) ∧
    ∃ H, G = .ok H ∧ ∀ a b, (H.g a b = .null ↔ ¬ Adj (fun a b => a ∈ o.parents b) a b) ∧ (H.Arrow a b ↔ Compelled (fun a b => a ∈ o.parents b) a b) := by
  obtain ⟨h1, h2⟩ := grasp_run he hR hl h
  obtain ⟨r1, r2, r3, -, H, r4, r5⟩ := C60_grasp_dag he hl h1
  exact ⟨r1, r3, r2, H, by rw [h2, r4 cfuel hcf], r5⟩

/-- **C203 (an unsuccessful search).** If `dfs` returns `False`, everything it tried has been undone: the order, the scores and, up to the order inside
the lists, the parents are those before the call. -/
theorem C203_dfs_false {sc : Fin p → Finset (Fin p) → K} {eps : K} (he : 0 ≤ eps) {R : Rand p} (hR : R.Ok) {depth : Nat} {l : List (Fin p)}
    (hl : l.Perm (List.finRange p)) {t : Nat} (hf : (roundX sc eps R depth (graspInit sc l) t).1 = false) :
    let o := (roundX sc eps R depth (graspInit sc l) t).2.1
    o.order = l ∧ (∀ v, (o.parents v).Perm (trParents sc v (l.take (l.idxOf v)))) ∧ o.scores = (graspInit sc l).scores := by
  have hd := round_dfs (eps := eps) hR depth (ok_init sc hl) t
  rw [hf] at hd
  have hs := (dfs_spec he hd (ok_init sc hl)).2.1 rfl
  exact ⟨hs.order, hs.parents, hs.scores⟩

/-- **C203 (termination, what is true).** If total scores that differ by less than the tolerance are equal, `grasp` returns, whatever the shuffles, after at
most as many successful rounds as there are orders with a better score than the initial one. Missing: the same without the condition on the score, which is false. -/
theorem C203_terminates_partial {sc : Fin p → Finset (Fin p) → K} {eps : K} (he : 0 ≤ eps)
    (hsep : ∀ l l' : List (Fin p), l.Perm (List.finRange p) → l'.Perm (List.finRange p) →
      total (trScore sc) l < total (trScore sc) l' + eps → total (trScore sc) l ≤ total (trScore sc) l')
    {R : Rand p} (hR : R.Ok) {depth : Nat} {l : List (Fin p)} (hl : l.Perm (List.finRange p)) {fuel : Nat} (hf : betterCount (trScore sc) l < fuel) (cfuel : Nat) :
    ∃ o G, grasp sc eps R depth l fuel cfuel = some (o, G) ∧ total (trScore sc) l ≤ total (trScore sc) o.order := by
  have key : ∀ (f : Nat) (o : Order p K) (t : Nat), Ok sc o → betterCount (trScore sc) o.order < f →
      ∃ o', graspLoop sc eps R depth f o t = some o' ∧ total (trScore sc) o.order ≤ total (trScore sc) o'.order := by
    intro f
    induction f with
    | zero => intro o t h hf; omega
    | succ f ih =>
      intro o t h hf
      have hd := round_dfs (eps := eps) hR depth h t
      rw [graspLoop]
      split
      · rename_i ht
        rw [ht] at hd
        have h1 := (dfs_spec he hd h).1
        have h2 := dfs_improves he hsep hd h rfl
        have h3 := lt_of_le_of_lt (le_add_of_nonneg_right he) h2
        have := betterCount_lt h1.perm h3
        obtain ⟨o', r1, r2⟩ := ih (roundX sc eps R depth o t).2.1 (roundX sc eps R depth o t).2.2 h1 (by omega)
        exact ⟨o', r1, h3.le.trans r2⟩
      · rename_i hff
        rw [Bool.eq_false_iff.2 hff] at hd
        exact ⟨_, rfl, by rw [((dfs_spec he hd h).2.1 rfl).order]⟩
  obtain ⟨o, h1, h2⟩ := key fuel (graspInit sc l) 0 (ok_init sc hl) hf
  exact ⟨o, _, by unfold grasp; rw [h1]; rfl, h2⟩

end

/-! ### C203: the loop need not end -/

/-- how much better (`13`, `6`, `0`) or worse (`-80`) an order of three variables is, by its first two entries -/
def cycT (a b : Fin 3) : Int := if (a, b) = (0, 1) then 13 else if (a, b) = (1, 2) then 6 else if (a, b) = (1, 0) then 0 else -80

/-- a score with which every predecessor is a parent -/
def cycScore (v : Fin 3) (S : Finset (Fin 3)) : Int :=
  if S.card = 0 then -200 else if S.card = 1 then -100 + (if 0 ∈ S then cycT 0 v else if 1 ∈ S then cycT 1 v else cycT 2 v) else 0

/-- shuffles that change nothing -/
def idRand (p : Nat) : Rand p := ⟨fun _ => List.range p, fun _ l => l⟩

theorem idRand_ok (p : Nat) : (idRand p).Ok := ⟨fun _ => List.Perm.refl _, fun _ _ => List.Perm.refl _⟩

theorem cyc_round : (roundX cycScore 10 (idRand 3) 3 (graspInit cycScore [0, 1, 2]) 0).1 = true ∧
    (roundX cycScore 10 (idRand 3) 3 (graspInit cycScore [0, 1, 2]) 0).2.1.order = [0, 1, 2] ∧
    (∀ v, (roundX cycScore 10 (idRand 3) 3 (graspInit cycScore [0, 1, 2]) 0).2.1.parents v = (graspInit cycScore [0, 1, 2]).parents v) ∧
    ∀ v, (roundX cycScore 10 (idRand 3) 3 (graspInit cycScore [0, 1, 2]) 0).2.1.scores v = (graspInit cycScore [0, 1, 2]).scores v := by
  decide +kernel

/-- **C203 is false (termination), and so is C60's "each successful round raises the total score".** There are a score, a tolerance and shuffles with which
`grasp` with the default depth 3 never returns: a search that loses 7 (less than the tolerance 10), then 6, then gains 13 counts as a success and
ends where it began. -/
theorem C203_no_termination_violated :
    ∃ (sc : Fin 3 → Finset (Fin 3) → Int) (eps : Int) (R : Rand 3), 0 < eps ∧ R.Ok ∧ ∀ fuel cfuel, grasp sc eps R 3 [0, 1, 2] fuel cfuel = none := by
  refine ⟨cycScore, 10, idRand 3, by decide, idRand_ok 3, fun fuel cfuel => ?_⟩
  have hst : ∀ t, (roundX cycScore 10 (idRand 3) 3 (graspInit cycScore [0, 1, 2]) t).1 = true ∧
      (roundX cycScore 10 (idRand 3) 3 (graspInit cycScore [0, 1, 2]) t).2.1 = graspInit cycScore [0, 1, 2] := by
    intro t
    obtain ⟨h1, h2⟩ := roundX_steady cycScore 10 (R := idRand 3) (fun _ => ⟨rfl, rfl⟩) 3 (graspInit cycScore [0, 1, 2]) t
    obtain ⟨c1, c2, c3, c4⟩ := cyc_round
    rw [h1, h2]
    refine ⟨c1, ?_⟩
    generalize roundX cycScore 10 (idRand 3) 3 (graspInit cycScore [0, 1, 2]) 0 = r at c1 c2 c3 c4
    have e : r.2.1 = ⟨r.2.1.order, r.2.1.parents, r.2.1.scores⟩ := rfl
    rw [e, c2, funext c3, funext c4]
    rfl
  have : ∀ f t, graspLoop cycScore 10 (idRand 3) 3 f (graspInit cycScore [0, 1, 2]) t = none := by
    intro f
    induction f with
    | zero => intro t; rfl
    | succ f ih => intro t; rw [graspLoop, if_pos (hst t).1, (hst t).2]; exact ih _
  unfold grasp
  rw [this]
  rfl

/-- In the run of `C203_no_termination_violated` a successful round ends with the order it started from (against the claim of C60 that every
successful round raises the total score). -/
theorem C60_round_no_gain_violated :
    let r := roundX cycScore 10 (idRand 3) 3 (graspInit cycScore [0, 1, 2]) 0
    r.1 = true ∧ total (trScore cycScore) r.2.1.order = total (trScore cycScore) [0, 1, 2] := by
  intro r
  exact ⟨cyc_round.1, by rw [show r.2.1.order = [0, 1, 2] from cyc_round.2.1]⟩

/-- The hypotheses of C203 are met: `grasp` on two variables, which turns the order round and returns. -/
example : (grasp twoScore 1 (idRand 2) 3 [0, 1] 5 100).map (fun r => (r.1.order, r.1.parents 0, r.1.parents 1)) = some ([1, 0], [1], []) := by
  decide +kernel

/-! ### C204: GRaSP with a consistent score -/

section
variable [IsOrderedAddMonoid K]

/-- **C204 (what is true).** With a score that is locally consistent for `D`, `grasp` returns the CPDAG of a minimal independence map of `D`, the one
determined by its final order. -/
theorem C204_minimal_imap_partial {D : Fin p → Fin p → Prop} {sc : Fin p → Finset (Fin p) → K} (hD : Acyclic D)
    (hc : LocallyConsistent (fun v S => - sc v S) D) {eps : K} (he : 0 ≤ eps) {R : Rand p} (hR : R.Ok) {depth fuel cfuel : Nat} (hcf : p * p + p < cfuel)
    {l : List (Fin p)} (hl : l.Perm (List.finRange p)) {o : Order p K} {G : GG.Outcome (GG p)} (h : grasp sc eps R depth l fuel cfuel = some (o, G)) :
    ∃ H F, G = .ok H ∧ Acyclic F ∧ MinimalIMap D F ∧
      (∀ a b, F a b ↔ o.order.idxOf a < o.order.idxOf b ∧ ¬ DSep D {x | o.order.idxOf x < o.order.idxOf b ∧ x ≠ a} b a) ∧
      ∀ a b, (H.g a b = .null ↔ ¬ Adj F a b) ∧ (H.Arrow a b ↔ Compelled F a b) := by
  obtain ⟨h1, h2⟩ := grasp_run he hR hl h
  obtain ⟨r1, r2, H, r3, r4⟩ := C81_grasp hD hc he hl h1
  exact ⟨H, _, by rw [h2, r3 cfuel hcf], (C60_grasp_dag he hl h1).2.2.2.1, r1, r2, r4⟩

/-- **C204 (a start in causal order).** With a score that is locally consistent for `D`, respects Markov equivalence and has no differences below the tolerance,
`grasp` returns the essential graph of `D` if the shuffled initial order lists causes before effects, whatever the depth and the later shuffles. Missing: the same
for other initial orders, which is false. -/
theorem C204_causal_start_partial {D : Fin p → Fin p → Prop} {sc : Fin p → Finset (Fin p) → K} (hD : Acyclic D)
    (hc : LocallyConsistent (fun v S => - sc v S) D) (hse : ScoreEquiv fun v S => - sc v S) {eps : K} (he : 0 ≤ eps)
    (hsep : ∀ l l' : List (Fin p), l.Perm (List.finRange p) → l'.Perm (List.finRange p) →
      total (trScore sc) l < total (trScore sc) l' + eps → total (trScore sc) l ≤ total (trScore sc) l')
    {R : Rand p} (hR : R.Ok) {l : List (Fin p)} (hl : l.Perm (List.finRange p)) (ho : ∀ a b, D a b → l.idxOf a < l.idxOf b) (depth : Nat) :
    ∃ f0, ∀ fuel cfuel, f0 ≤ fuel → p * p + p < cfuel → ∃ o H, grasp sc eps R depth l fuel cfuel = some (o, .ok H) ∧
      ∀ a b, (H.g a b = .null ↔ ¬ Adj D a b) ∧ (H.Arrow a b ↔ Compelled D a b) := by
  refine ⟨betterCount (trScore sc) l + 1, fun fuel cfuel hf hcf => ?_⟩
  obtain ⟨o, G, h1, h2⟩ := C203_terminates_partial he hsep hR (depth := depth) hl (by omega : betterCount (trScore sc) l < fuel) cfuel
  obtain ⟨hp, -, -, H, rfl, hH⟩ := C203_grasp_result he hR hcf hl h1
  refine ⟨o, H, h1, fun a b => ?_⟩
  obtain ⟨g1, -⟩ := grasp_run he hR hl h1
  have hok := run_ok he g1 (ok_init sc hl)
  have hpar : (fun a b => a ∈ o.parents b) = fun a b => a ∈ finalParents sc o.order b := by
    funext a b; exact propext ((hok.parents b).mem_iff)
  have h3 := acyclic_of_order (finalParents_before sc o.order)
  rw [total_causal hD hc hl ho, total_dagScore hp] at h2
  have hE : MarkovEquiv D fun a b => a ∈ finalParents sc o.order b :=
    optimal_equiv' hD hc hse h3 fun F' hF' => (neg_le_neg_iff.1 h2).trans (dagScore_true hD hc hse hF')
  rw [(hH a b).1, (hH a b).2, hpar, compelled_congr hD h3 hE, hE.1]
  exact ⟨Iff.rfl, Iff.rfl⟩

end

/-- The collider `0 → 1 ← 2`. -/
def colE (a b : Fin 3) : Bool := (a, b) == (0, 1) || (a, b) == (2, 1)

/-- One if some element of `l` is in `S`. -/
def hit3 (l : List (Fin 3)) (S : Finset (Fin 3)) : Int := if ∃ x ∈ l, x ∈ S then 1 else 0

/-- A joint entropy (in bits) of three variables that obey exactly the d-separations of `colE`: 1 contains the sum of a bit of 0 and a bit of 2. -/
def colEntropy (S : Finset (Fin 3)) : Int := min 2 (hit3 [0] S + hit3 [2] S + hit3 [1] S) + hit3 [0, 1] S + hit3 [2, 1] S + hit3 [1] S

/-- `2 · entropy` and a term whose increments count the parents, times four. -/
def colF (S : Finset (Fin 3)) : Int := 4 * (2 * colEntropy S + S.card * (S.card - 1) / 2)

/-- Minus (a multiple of the conditional entropy of `v` given `S`, plus a penalty for each parent). -/
def colScore (v : Fin 3) (S : Finset (Fin 3)) : Int := - (colF (insert v S) - colF S)

theorem col_acyclic : Acyclic fun a b => colE a b = true := acyclic_of_rank (ρ := ![0, 1, 0]) (by decide)

theorem col_scoreEquiv : ScoreEquiv fun v S => - colScore v S := by
  intro D F hD hF h
  simp only [colScore, neg_neg]
  exact ScoreEq.score_equiv hD hF h colF

theorem col_consistent : LocallyConsistent (fun v S => - colScore v S) fun a b => colE a b = true := by
  have key : ∀ i j (S : Finset (Fin 3)), i ≠ j → i ∉ S → j ∉ S →
      (dconnB colE (fun v => decide (v ∈ S)) i j = true → - colScore i (insert j S) < - colScore i S) ∧
      (dconnB colE (fun v => decide (v ∈ S)) i j = false → - colScore i S < - colScore i (insert j S)) := by decide +kernel
  intro i j S hij hi hj
  have h := key i j S hij hi hj
  have hd : dconnB colE (fun v => decide (v ∈ S)) i j = true ↔ DConn (fun a b => colE a b = true) ↑S i j := by
    rw [dconnB_iff (r := ![0, 1, 0]) (by decide) (by decide)]
    simp
  refine ⟨fun hc => h.1 (hd.2 (not_not.1 hc)), fun hc => h.2 (Bool.eq_false_iff.2 fun e => hc (hd.1 e))⟩

/-- shuffles of a run that misses the improvement: a search of depth 3 makes twenty -/
def colRand : Rand 3 :=
  ⟨fun t => if t = 3 ∨ t = 14 then [1, 0, 2] else if t = 12 then [2, 1, 0] else [0, 1, 2], fun t l => if t = 11 then l.reverse else l⟩

theorem colRand_ok : colRand.Ok := by
  refine ⟨fun t => ?_, fun t l => ?_⟩
  · unfold colRand
    simp only
    split
    · decide
    · split <;> decide
  · unfold colRand
    simp only
    split
    · exact List.reverse_perm l
    · exact List.Perm.refl _

theorem col_run : (graspLoop colScore 1 colRand 3 1 (graspInit colScore [0, 1, 2]) 0).map (fun o => (o.order, o.parents 2)) = some ([0, 1, 2], [0, 1]) := by
  decide +kernel

/-- **C204 is false.** For the collider `0 → 1 ← 2` there is a score that is locally consistent for it and respects Markov equivalence, and there are shuffles, with which
`grasp` with the default depth 3 stops at the initial order `0, 1, 2` and returns a graph in which 0 and 2 are adjacent, although the order `0, 2, 1` scores better by more than
the tolerance. -/
theorem C204_collider_violated :
    ∃ (D : Fin 3 → Fin 3 → Prop) (sc : Fin 3 → Finset (Fin 3) → Int) (R : Rand 3), Acyclic D ∧ LocallyConsistent (fun v S => - sc v S) D ∧
      ScoreEquiv (fun v S => - sc v S) ∧ R.Ok ∧ ¬ Adj D 0 2 ∧ total (trScore sc) [0, 1, 2] + 1 < total (trScore sc) [0, 2, 1] ∧
      ∀ fuel cfuel, 0 < fuel → 12 < cfuel → ∃ o H, grasp sc 1 R 3 [0, 1, 2] fuel cfuel = some (o, .ok H) ∧ o.order = [0, 1, 2] ∧ H.g 0 2 ≠ .null := by
  refine ⟨_, colScore, colRand, col_acyclic, col_consistent, col_scoreEquiv, colRand_ok, by unfold Adj; decide, by decide +kernel, fun fuel cfuel hf hcf => ?_⟩
  obtain ⟨o, h1, h2⟩ := Option.map_eq_some_iff.1 col_run
  obtain ⟨h3, h4⟩ := Prod.mk.inj h2
  have mono : graspLoop colScore 1 colRand 3 fuel (graspInit colScore [0, 1, 2]) 0 = some o := by
    obtain ⟨f, rfl⟩ : ∃ f, fuel = f + 1 := ⟨fuel - 1, by omega⟩
    rw [graspLoop] at h1 ⊢
    split at h1
    · simp [graspLoop] at h1
    · rename_i hn
      rw [if_neg hn]; exact h1
  have hg : grasp colScore 1 colRand 3 [0, 1, 2] fuel cfuel = some (o, (parentsGraph o.parents).dag2cpdag cfuel) := by
    unfold grasp; rw [mono]; rfl
  obtain ⟨-, -, -, H, hH, hs⟩ := C203_grasp_result (by decide) colRand_ok (by omega) (by decide) hg
  refine ⟨o, H, by rw [hg, hH], h3, ?_⟩
  rw [ne_eq, (hs 0 2).1, not_not]
  refine Or.inl ?_
  show (0 : Fin 3) ∈ o.parents 2
  rw [h4]; simp

end Perm
end CL
