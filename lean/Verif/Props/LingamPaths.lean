import Verif.Model.Lingam
import Verif.Props.Lingam
import Mathlib.Data.List.Chain
import Mathlib.Data.List.Perm.Subperm
import Mathlib.Algebra.BigOperators.Group.List.Lemmas

/-!
# C45, C132 (`find_all_paths`) and C47 (bootstrap direction counts)
-/
namespace CL.Lingam

/-! ## Specification of C45 -/

/-- There is an edge `i → j`: the coefficient in row `j`, column `i` exceeds the threshold. -/
def EdgeB {R : Type} (exceeds : R → Bool) (n : Nat) (dag : Nat → Nat → R) (i j : Nat) : Prop :=
  i < n ∧ j < n ∧ exceeds (dag j i) = true

/-- `p` is a directed path from `s` to `t`. -/
def IsPathB {R : Type} (exceeds : R → Bool) (n : Nat) (dag : Nat → Nat → R) (s t : Nat) (p : List Nat) : Prop :=
  p.head? = some s ∧ p.getLast? = some t ∧ p.IsChain (EdgeB exceeds n dag)

/-- Product of the coefficients along a path. -/
def effectOf {R : Type} [Monoid R] (dag : Nat → Nat → R) : List Nat → R
  | a :: b :: l => dag b a * effectOf dag (b :: l)
  | _ => 1

/-! ## Proof -/

theorem chain_trans {E : Nat → Nat → Prop} : ∀ {l : List Nat} {a b : Nat}, (a :: l).IsChain E → b ∈ l →
    Relation.TransGen E a b
  | c :: l, a, b, h, hb => by
    rw [List.isChain_cons_cons] at h
    rcases List.mem_cons.1 hb with rfl | hb
    · exact .single h.1
    · exact .head h.1 (chain_trans h.2 hb)

section DFS
variable {n : Nat} {adj : Nat → List Nat} {src target : Nat}

/-- All paths from `v` to the target, by bounded recursion. -/
def pathsFrom (adj : Nat → List Nat) (target : Nat) : Nat → Nat → List (List Nat)
  | 0, _ => []
  | d + 1, v => if v = target then [[v]] else (adj v).flatMap fun w => (pathsFrom adj target d w).map (v :: ·)

/-- `k` iterations lead from `s` to `s'` without stopping. -/
def Leads (n : Nat) (adj : Nat → List Nat) (src target : Nat) (s s' : DfsState) : Prop :=
  ∃ k, ∀ fuel, dfsRun n adj src target (k + fuel) s = dfsRun n adj src target fuel s'

theorem Leads.refl (s : DfsState) : Leads n adj src target s s := ⟨0, fun fuel => by rw [Nat.zero_add]⟩

theorem Leads.trans {a b c : DfsState} (h1 : Leads n adj src target a b) (h2 : Leads n adj src target b c) :
    Leads n adj src target a c := by
  obtain ⟨k1, h1⟩ := h1
  obtain ⟨k2, h2⟩ := h2
  exact ⟨k1 + k2, fun fuel => by rw [Nat.add_assoc, h1, h2]⟩

theorem Leads.step {s s' : DfsState} (hne : s.stack ≠ []) (h : dfsStep n adj src target s = some s') :
    Leads n adj src target s s' :=
  ⟨1, fun fuel => by rw [Nat.add_comm, dfsRun, if_neg hne, h]⟩

/-- The vertices on the stack (top first) form a path, so acyclicity bounds its height. -/
theorem leads_vertex (E : Nat → Nat → Prop) (hadj : ∀ v w, w ∈ adj v → v < n → E v w) (hE : ∀ a b, E a b → a < n ∧ b < n)
    (hac : ∀ i, ¬ Relation.TransGen E i i)
    (height : ∀ l : List Nat, l.IsChain (fun a b => E b a) → (∀ x ∈ l, x < n) → l.length ≤ n) (d : Nat) :
    ∀ (v : Nat) (below : List (Nat × List Nat)) (ps : List (List Nat)),
      (v :: below.map Prod.fst).getLast? = some src →
      (v :: below.map Prod.fst).IsChain (fun a b => E b a) → (∀ x ∈ v :: below.map Prod.fst, x < n) →
      n ≤ d + below.length →
      Leads n adj src target ⟨(v, adj v) :: below, ps⟩
        ⟨below, ps ++ (pathsFrom adj target d v).map ((below.map Prod.fst).reverse ++ ·)⟩ := by
  induction d with
  | zero =>
    intro v below ps hsrc hch hlt hd
    have := height _ hch hlt
    simp only [List.length_cons, List.length_map] at this
    omega
  | succ d ih =>
    intro v below ps hsrc hch hlt hd
    have hlen := height _ hch hlt
    simp only [List.length_cons, List.length_map] at hlen
    by_cases hv : v = target
    · refine (Leads.step (s' := ⟨below, ps ++ [(v :: below.map Prod.fst).reverse]⟩) (by simp) ?_).trans ?_
      · simp only [dfsStep, List.length_cons, List.map_cons, hv, if_true]
        rw [if_neg (by omega)]
      · simp only [pathsFrom, hv, if_true, List.map_cons, List.map_nil, List.reverse_cons]
        exact Leads.refl _
    · have loop : ∀ (rem : List Nat) (ps : List (List Nat)), (∀ w ∈ rem, w ∈ adj v) →
          Leads n adj src target ⟨(v, rem) :: below, ps⟩
            ⟨below, ps ++ (rem.flatMap fun w => (pathsFrom adj target d w).map (v :: ·)).map
              ((below.map Prod.fst).reverse ++ ·)⟩ := by
        intro rem
        induction rem with
        | nil =>
          intro ps _
          refine (Leads.step (s' := ⟨below, ps⟩) (by simp) ?_).trans (by simpa using Leads.refl _)
          simp only [dfsStep, List.length_cons]
          rw [if_neg (by omega), if_neg hv]
        | cons w rem ihr =>
          intro ps hw
          have hvw : E v w := hadj v w (hw w (by simp)) (hlt v (by simp))
          have hws : w ≠ src := by
            rintro rfl
            have hr := chain_trans (List.isChain_cons_cons.2 ⟨hvw, hch⟩ :
              (w :: v :: below.map Prod.fst).IsChain (fun a b => E b a)) (List.mem_of_getLast? hsrc)
            exact hac w (Relation.transGen_swap.1 hr)
          refine (Leads.step (s' := ⟨(w, adj w) :: (v, rem) :: below, ps⟩) (by simp) ?_).trans ?_
          · simp only [dfsStep, List.length_cons]
            rw [if_neg (by omega), if_neg hv, if_neg hws]
          · refine (ih w ((v, rem) :: below) ps ?_ ?_ ?_ ?_).trans ?_
            · simpa [List.getLast?_cons_cons] using hsrc
            · simp only [List.map_cons]
              exact List.isChain_cons_cons.2 ⟨hvw, hch⟩
            · intro x hx
              rcases List.mem_cons.1 hx with rfl | hx
              · exact (hE _ _ hvw).2
              · exact hlt x (by simpa using hx)
            · simp only [List.length_cons]; omega
            · have := ihr (ps ++ (pathsFrom adj target d w).map ((((v, rem) :: below).map Prod.fst).reverse ++ ·))
                (fun x hx => hw x (by simp [hx]))
              simpa [List.map_map, Function.comp_def, List.append_assoc] using this
      have := loop (adj v) ps (fun _ h => h)
      simpa [pathsFrom, hv] using this

end DFS

theorem chain_nodup {E : Nat → Nat → Prop} (hac : ∀ i, ¬ Relation.TransGen E i i) :
    ∀ {l : List Nat}, l.IsChain E → l.Nodup
  | [], _ => List.nodup_nil
  | a :: l, h => by
    rw [List.nodup_cons]
    exact ⟨fun ha => hac a (chain_trans h ha), chain_nodup hac h.tail⟩

theorem nodup_length {n : Nat} {l : List Nat} (h : l.Nodup) (hl : ∀ x ∈ l, x < n) : l.length ≤ n := by
  have := List.subperm_of_subset h (l₂ := List.range n) (fun x hx => List.mem_range.2 (hl x hx))
  simpa using this.length_le

theorem mem_pathsFrom {E : Nat → Nat → Prop} {adj : Nat → List Nat} {target n : Nat} (hac : ∀ i, ¬ Relation.TransGen E i i)
    (hadj : ∀ v w, v < n → (w ∈ adj v ↔ E v w)) (hE : ∀ a b, E a b → a < n ∧ b < n) (d : Nat) :
    ∀ (v : Nat) (p : List Nat), v < n → (p ∈ pathsFrom adj target d v ↔
      p.length ≤ d ∧ p.head? = some v ∧ p.getLast? = some target ∧ p.IsChain E) := by
  induction d with
  | zero =>
    intro v p _
    simp only [pathsFrom, List.not_mem_nil, false_iff]
    rintro ⟨h1, h2, -⟩
    rw [List.length_eq_zero_iff.1 (Nat.le_zero.1 h1)] at h2
    cases h2
  | succ d ih =>
    intro v p hv
    unfold pathsFrom
    by_cases hvt : v = target
    · subst hvt
      simp only [if_true, List.mem_singleton]
      constructor
      · rintro rfl; simp
      · rintro ⟨-, h2, h3, h4⟩
        cases p with
        | nil => cases h2
        | cons a l =>
          simp only [List.head?_cons, Option.some_inj] at h2
          subst h2
          cases l with
          | nil => rfl
          | cons b l =>
            exfalso
            refine hac a (chain_trans h4 ?_)
            rw [List.getLast?_cons_cons] at h3
            exact List.mem_of_getLast? h3
    · rw [if_neg hvt, List.mem_flatMap]
      constructor
      · rintro ⟨w, hw, h⟩
        rw [List.mem_map] at h
        obtain ⟨q, hq, rfl⟩ := h
        have hvw := (hadj v w hv).1 hw
        obtain ⟨h1, h2, h3, h4⟩ := (ih w q (hE _ _ hvw).2).1 hq
        cases q with
        | nil => cases h2
        | cons b l =>
          simp only [List.head?_cons, Option.some_inj] at h2
          subst h2
          refine ⟨by simpa using h1, rfl, ?_, List.isChain_cons_cons.2 ⟨hvw, h4⟩⟩
          rw [List.getLast?_cons_cons]; exact h3
      · rintro ⟨h1, h2, h3, h4⟩
        cases p with
        | nil => cases h2
        | cons a l =>
          simp only [List.head?_cons, Option.some_inj] at h2
          subst h2
          cases l with
          | nil => simp only [List.getLast?_singleton, Option.some_inj] at h3; exact absurd h3 hvt
          | cons b l =>
            rw [List.isChain_cons_cons] at h4
            refine ⟨b, (hadj a b hv).2 h4.1, List.mem_map.2 ⟨b :: l, ?_, rfl⟩⟩
            rw [ih b _ (hE _ _ h4.1).2]
            refine ⟨by simpa using h1, rfl, ?_, h4.2⟩
            rw [List.getLast?_cons_cons] at h3; exact h3

theorem pathsFrom_head {adj : Nat → List Nat} {target : Nat} (d : Nat) (v : Nat) (p : List Nat)
    (h : p ∈ pathsFrom adj target d v) : p.head? = some v := by
  cases d with
  | zero => simp [pathsFrom] at h
  | succ d =>
    unfold pathsFrom at h
    split at h
    · rw [List.mem_singleton.1 h]; rfl
    · rw [List.mem_flatMap] at h
      obtain ⟨w, -, h⟩ := h
      rw [List.mem_map] at h
      obtain ⟨q, -, rfl⟩ := h
      rfl

theorem pathsFrom_nodup {adj : Nat → List Nat} {target : Nat} (hadj : ∀ v, (adj v).Nodup) (d : Nat) :
    ∀ v, (pathsFrom adj target d v).Nodup := by
  induction d with
  | zero => intro v; exact List.nodup_nil
  | succ d ih =>
    intro v
    unfold pathsFrom
    split
    · simp
    · rw [List.nodup_flatMap]
      refine ⟨fun w _ => (ih w).map (by intro a b h; simpa using h), ?_⟩
      refine (hadj v).imp fun {a b} hab => ?_
      intro p hp hq
      rw [List.mem_map] at hp hq
      obtain ⟨q1, h1, rfl⟩ := hp
      obtain ⟨q2, h2, h3⟩ := hq
      simp only [List.cons.injEq, true_and] at h3
      subst h3
      have e1 := pathsFrom_head _ _ _ h1
      rw [pathsFrom_head _ _ _ h2, Option.some_inj] at e1
      exact hab e1.symm

theorem pathEffect_eq {R : Type} [Monoid R] (dag : Nat → Nat → R) (p : List Nat) (h : 2 ≤ p.length) :
    pathEffect dag p = some (effectOf dag p) := by
  have fold : ∀ (cs : List R) (c : R), cs.foldl (fun x y => x * y) c = c * cs.prod := by
    intro cs
    induction cs with
    | nil => simp
    | cons x cs ih => intro c; rw [List.foldl_cons, ih, List.prod_cons, mul_assoc]
  have zp : ∀ (p : List Nat), (List.zipWith (fun a b => dag b a) p p.tail).prod = effectOf dag p := by
    intro p
    induction p with
    | nil => simp [effectOf]
    | cons a l ih =>
      cases l with
      | nil => simp [effectOf]
      | cons b l =>
        have : List.zipWith (fun a b => dag b a) (a :: b :: l) (a :: b :: l).tail =
            dag b a :: List.zipWith (fun a b => dag b a) (b :: l) (b :: l).tail := rfl
        rw [this, List.prod_cons, ih, effectOf]
  unfold pathEffect
  rw [← zp]
  cases hz : List.zipWith (fun a b => dag b a) p p.tail with
  | nil =>
    have := congrArg List.length hz
    simp only [List.length_zipWith, List.length_tail, List.length_nil] at this
    omega
  | cons c cs => simp only [fold, List.prod_cons]

theorem mapM_some {α β : Type} (f : α → Option β) (g : α → β) : ∀ (l : List α), (∀ a ∈ l, f a = some (g a)) →
    l.mapM f = some (l.map g)
  | [], _ => rfl
  | a :: l, h => by
    rw [List.mapM_cons, h a (by simp), mapM_some f g l (fun b hb => h b (by simp [hb]))]
    rfl

theorem toIndices_mem {R : Type} (exceeds : R → Bool) (n : Nat) (dag : Nat → Nat → R) (v w : Nat) (hv : v < n) :
    w ∈ toIndices exceeds n dag v ↔ EdgeB exceeds n dag v w := by
  unfold toIndices EdgeB
  rw [List.mem_filter, List.mem_range]
  tauto

/-- **C45**: on an acyclic coefficient matrix, for different source and target, `find_all_paths` terminates without error and
returns every directed path from source to target exactly once, together with the product of its coefficients. -/
theorem C45_find_all_paths_exact {R : Type} [Monoid R] (exceeds : R → Bool) (n : Nat) (dag : Nat → Nat → R)
    (hac : ∀ i, ¬ Relation.TransGen (EdgeB exceeds n dag) i i) (s t : Nat) (hs : s < n) (hst : s ≠ t) :
    ∃ k L, (∀ fuel, findAllPaths exceeds n dag s t (k + fuel) = some (some L)) ∧ (L.map Prod.fst).Nodup ∧
      ∀ p e, (p, e) ∈ L ↔ IsPathB exceeds n dag s t p ∧ e = effectOf dag p := by
  have hE : ∀ a b, EdgeB exceeds n dag a b → a < n ∧ b < n := fun a b h => ⟨h.1, h.2.1⟩
  have hacr : ∀ i, ¬ Relation.TransGen (fun a b => EdgeB exceeds n dag b a) i i := by
    intro i h
    exact hac i (Relation.transGen_swap.1 h)
  have height : ∀ l : List Nat, l.IsChain (fun a b => EdgeB exceeds n dag b a) → (∀ x ∈ l, x < n) → l.length ≤ n :=
    fun l h1 h2 => nodup_length (chain_nodup hacr h1) h2
  obtain ⟨k, hk⟩ := leads_vertex (src := s) (target := t) (EdgeB exceeds n dag)
    (fun v w h1 h2 => (toIndices_mem exceeds n dag v w h2).1 h1) hE hac height n s [] [] (by simp) (by simp) (by simpa using hs)
    (by simp)
  have hk' : ∀ fuel, dfsRun n (toIndices exceeds n dag) s t (k + fuel) ⟨[(s, toIndices exceeds n dag s)], []⟩ =
      some (some (pathsFrom (toIndices exceeds n dag) t n s)) := by
    intro fuel
    rw [hk]
    cases fuel <;> simp [dfsRun]
  have hpaths : ∀ p, p ∈ pathsFrom (toIndices exceeds n dag) t n s ↔ IsPathB exceeds n dag s t p := by
    intro p
    rw [mem_pathsFrom hac (fun v w hv => toIndices_mem exceeds n dag v w hv) hE n s p hs]
    unfold IsPathB
    constructor
    · rintro ⟨-, h⟩; exact h
    · rintro h
      refine ⟨nodup_length (chain_nodup hac h.2.2) ?_, h⟩
      intro x hx
      cases p with
      | nil => cases hx
      | cons a l =>
        have ha : a = s := by simpa using h.1
        rcases List.mem_cons.1 hx with rfl | hx
        · rw [ha]; exact hs
        · have := chain_trans h.2.2 hx
          cases this with
          | single h' => exact h'.2.1
          | tail _ h' => exact h'.2.1
  have hlen : ∀ p, IsPathB exceeds n dag s t p → 2 ≤ p.length := by
    rintro p ⟨h1, h2, -⟩
    match p, h1, h2 with
    | [a], h1, h2 =>
      simp only [List.head?_cons, Option.some_inj, List.getLast?_singleton] at h1 h2
      exact absurd (h1.symm.trans h2) hst
    | _ :: _ :: _, _, _ => simp
  refine ⟨k, (pathsFrom (toIndices exceeds n dag) t n s).map fun p => (p, effectOf dag p), fun fuel => ?_, ?_, ?_⟩
  · unfold findAllPaths
    rw [hk']
    simp only [Option.map_some, Option.bind_some, Option.some_inj]
    refine mapM_some _ _ _ fun p hp => ?_
    rw [pathEffect_eq dag p (hlen p ((hpaths p).1 hp))]
    rfl
  · rw [List.map_map]
    have : (Prod.fst ∘ fun p : List Nat => (p, effectOf dag p)) = id := rfl
    rw [this, List.map_id]
    exact pathsFrom_nodup (fun v => List.nodup_range.filter _) n s
  · intro p e
    rw [List.mem_map]
    constructor
    · rintro ⟨q, hq, h⟩
      simp only [Prod.mk.injEq] at h
      obtain ⟨rfl, rfl⟩ := h
      exact ⟨(hpaths q).1 hq, rfl⟩
    · rintro ⟨h1, rfl⟩
      exact ⟨p, (hpaths p).2 h1, rfl⟩

/-- For equal source and target the call raises (IndexError from `np.cumprod([])[-1]`), on every matrix. -/
theorem C45_same_endpoints_raise {R : Type} [Mul R] (exceeds : R → Bool) (n : Nat) (dag : Nat → Nat → R) (s fuel : Nat)
    (hs : s < n) : findAllPaths exceeds n dag s s (fuel + 1) = some none := by
  have : dfsRun n (toIndices exceeds n dag) s s (fuel + 1) ⟨[(s, toIndices exceeds n dag s)], []⟩ = some (some [[s]]) := by
    have h : ¬ n < 1 := by omega
    rw [dfsRun]
    simp only [List.cons_ne_nil, if_false, dfsStep, List.length_singleton, h, if_true, gt_iff_lt]
    cases fuel <;> simp [dfsRun]
  unfold findAllPaths
  rw [this]
  rfl

/-- Concrete case: the diamond 0 → 1 → 3, 0 → 2 → 3 with coefficients 2, 3, 5, 7. -/
example : findAllPaths (R := Int) (fun x => decide (x ≠ 0)) 4
    (fun j i => if (j, i) = (1, 0) then 2 else if (j, i) = (3, 1) then 3 else if (j, i) = (2, 0) then 5
      else if (j, i) = (3, 2) then 7 else 0) 0 3 20 = some (some [([0, 1, 3], 6), ([0, 2, 3], 35)]) := by decide

/-! ### Cyclic matrices -/

section Cyclic
variable {n : Nat} {adj : Nat → List Nat} {src target : Nat}

/-- The run raises after finitely many iterations. -/
def Raises (n : Nat) (adj : Nat → List Nat) (src target : Nat) (s : DfsState) : Prop :=
  ∃ k, ∀ fuel, dfsRun n adj src target (k + fuel) s = some none

theorem Raises.of_leads {s s' : DfsState} (h : Leads n adj src target s s') (h' : Raises n adj src target s') :
    Raises n adj src target s := by
  obtain ⟨k1, h1⟩ := h
  obtain ⟨k2, h2⟩ := h'
  exact ⟨k1 + k2, fun fuel => by rw [Nat.add_assoc, h1, h2]⟩

theorem raises_tall {v : Nat} {L : List Nat} {below : List (Nat × List Nat)} {ps : List (List Nat)}
    (h : n ≤ below.length) : Raises n adj src target ⟨(v, L) :: below, ps⟩ := by
  refine ⟨1, fun fuel => ?_⟩
  rw [Nat.add_comm, dfsRun, if_neg (by simp)]
  simp only [dfsStep, List.length_cons]
  rw [if_pos (by omega)]

/-- Whatever the lists are, a frame is either popped after finitely many iterations or the run raises. -/
theorem frame_ends (d : Nat) : ∀ (v : Nat) (L : List Nat) (below : List (Nat × List Nat)) (ps : List (List Nat)),
    n ≤ d + below.length → Raises n adj src target ⟨(v, L) :: below, ps⟩ ∨
      ∃ ps', Leads n adj src target ⟨(v, L) :: below, ps⟩ ⟨below, ps'⟩ := by
  induction d with
  | zero => intro v L below ps h; exact Or.inl (raises_tall (by omega))
  | succ d ih =>
    intro v L
    induction L with
    | nil =>
      intro below ps h
      by_cases ht : n ≤ below.length
      · exact Or.inl (raises_tall ht)
      by_cases hv : v = target
      · refine Or.inr ⟨ps ++ [(v :: below.map Prod.fst).reverse], Leads.step (by simp) ?_⟩
        · simp only [dfsStep, List.length_cons, List.map_cons, hv, if_true]
          rw [if_neg (by omega)]
      · refine Or.inr ⟨ps, Leads.step (by simp) ?_⟩
        simp only [dfsStep, List.length_cons]
        rw [if_neg (by omega), if_neg hv]
    | cons w L ihL =>
      intro below ps h
      by_cases ht : n ≤ below.length
      · exact Or.inl (raises_tall ht)
      by_cases hv : v = target
      · refine Or.inr ⟨ps ++ [(v :: below.map Prod.fst).reverse], Leads.step (by simp) ?_⟩
        · simp only [dfsStep, List.length_cons, List.map_cons, hv, if_true]
          rw [if_neg (by omega)]
      · have hstep : Leads n adj src target ⟨(v, w :: L) :: below, ps⟩
            ⟨(w, if w = src then sourceRem L below else adj w) :: (v, L) :: below, ps⟩ := by
          refine Leads.step (by simp) ?_
          simp only [dfsStep, List.length_cons]
          rw [if_neg (by omega), if_neg hv]
        rcases ih w (if w = src then sourceRem L below else adj w) ((v, L) :: below) ps
          (by simp only [List.length_cons]; omega) with hr | ⟨ps', hl⟩
        · exact Or.inl (hr.of_leads hstep)
        · rcases ihL below ps' h with hr | ⟨ps'', hl'⟩
          · exact Or.inl (hr.of_leads (hstep.trans hl))
          · exact Or.inr ⟨ps'', (hstep.trans hl).trans hl'⟩

/-- A long walk that avoids the target and does not come back to the source makes the run raise. -/
theorem walk_raises (d : Nat) : ∀ (v : Nat) (below : List (Nat × List Nat)) (ps : List (List Nat)) (p : List Nat),
    n ≤ d + below.length → p.length = d → v ≠ target →
    (v :: p).IsChain (fun a b => b ∈ adj a ∧ b ≠ target ∧ b ≠ src) →
    Raises n adj src target ⟨(v, adj v) :: below, ps⟩ := by
  induction d with
  | zero => intro v below ps p h _ _ _; exact raises_tall (by omega)
  | succ d ih =>
    intro v below ps p h hp hv hch
    match p, hp, hch with
    | w :: p, hp, hch =>
      rw [List.isChain_cons_cons] at hch
      have loop : ∀ (L : List Nat) (ps : List (List Nat)), w ∈ L →
          Raises n adj src target ⟨(v, L) :: below, ps⟩ := by
        intro L
        induction L with
        | nil => intro ps hw; cases hw
        | cons u L ihL =>
          intro ps hw
          by_cases ht : n ≤ below.length
          · exact raises_tall ht
          have hstep : Leads n adj src target ⟨(v, u :: L) :: below, ps⟩
              ⟨(u, if u = src then sourceRem L below else adj u) :: (v, L) :: below, ps⟩ := by
            refine Leads.step (by simp) ?_
            simp only [dfsStep, List.length_cons]
            rw [if_neg (by omega), if_neg hv]
          by_cases hu : u = w
          · subst hu
            rw [if_neg hch.1.2.2] at hstep
            have hlen : n ≤ d + ((v, L) :: below).length := by simp only [List.length_cons]; omega
            exact Raises.of_leads hstep (ih u ((v, L) :: below) ps p hlen (by simpa using hp) hch.1.2.1 hch.2)
          · rcases frame_ends (n := n) (adj := adj) (src := src) (target := target) d u
              (if u = src then sourceRem L below else adj u) ((v, L) :: below) ps
              (by simp only [List.length_cons]; omega) with hr | ⟨ps', hl⟩
            · exact hr.of_leads hstep
            · refine (ihL ps' ?_).of_leads (hstep.trans hl)
              rcases List.mem_cons.1 hw with h | h
              · exact absurd h.symm hu
              · exact h
      exact loop (adj v) ps hch.1.1

end Cyclic

/-- **C132**, termination: on every matrix, cyclic or not, the search ends (with a list of paths or with an exception). -/
theorem C132_terminates {R : Type} [Mul R] (exceeds : R → Bool) (n : Nat) (dag : Nat → Nat → R) (s t : Nat) :
    ∃ k r, ∀ fuel, findAllPaths exceeds n dag s t (k + fuel) = some r := by
  rcases frame_ends (n := n) (adj := toIndices exceeds n dag) (src := s) (target := t) n s
    (toIndices exceeds n dag s) [] [] (by simp) with ⟨k, hk⟩ | ⟨ps, k, hk⟩
  · exact ⟨k, none, fun fuel => by unfold findAllPaths; rw [hk]; rfl⟩
  · refine ⟨k, ps.mapM fun p => (pathEffect dag p).map fun e => (p, e), fun fuel => ?_⟩
    unfold findAllPaths
    rw [hk]
    cases fuel <;> simp [dfsRun]

/-- **C132**, cycles: if a directed cycle can be reached from the source without meeting the target and without coming back
to the source, the call raises. -/
theorem C132_cycle_raises {R : Type} [Mul R] (exceeds : R → Bool) (n : Nat) (dag : Nat → Nat → R) (s t v : Nat) (hst : s ≠ t)
    (hreach : Relation.ReflTransGen (fun a b => EdgeB exceeds n dag a b ∧ b ≠ t ∧ b ≠ s) s v)
    (hcyc : Relation.TransGen (fun a b => EdgeB exceeds n dag a b ∧ b ≠ t ∧ b ≠ s) v v) :
    ∃ k, ∀ fuel, findAllPaths exceeds n dag s t (k + fuel) = some none := by
  have key : ∀ (m : Nat) (x : Nat), Relation.TransGen (fun a b => EdgeB exceeds n dag a b ∧ b ≠ t ∧ b ≠ s) x v →
      ∃ p : List Nat, p.length = m ∧
        (x :: p).IsChain (fun a b => b ∈ toIndices exceeds n dag a ∧ b ≠ t ∧ b ≠ s) := by
    intro m
    induction m with
    | zero => intro x _; exact ⟨[], rfl, by simp⟩
    | succ m ih =>
      intro x hx
      obtain ⟨y, hxy, hy⟩ := Relation.TransGen.head'_iff.1 hx
      have hy' : Relation.TransGen (fun a b => EdgeB exceeds n dag a b ∧ b ≠ t ∧ b ≠ s) y v :=
        Relation.TransGen.trans_right hy hcyc
      obtain ⟨p, hp, hch⟩ := ih y hy'
      exact ⟨y :: p, by simp [hp], List.isChain_cons_cons.2
        ⟨⟨(toIndices_mem exceeds n dag x y hxy.1.1).2 hxy.1, hxy.2⟩, hch⟩⟩
  obtain ⟨p, hp, hch⟩ := key n s (Relation.TransGen.trans_right hreach hcyc)
  obtain ⟨k, hk⟩ := walk_raises (n := n) (adj := toIndices exceeds n dag) (src := s) (target := t) n s [] [] p (by simp) hp
    hst hch
  exact ⟨k, fun fuel => by unfold findAllPaths; rw [hk]; rfl⟩

/-- The hypotheses of `C132_cycle_raises` are met: 0 → 1 → 2 → 1 with target 3, and the call raises. -/
example : findAllPaths (R := Int) (fun x => decide (x ≠ 0)) 4
    (fun j i => if (j, i) ∈ [(1, 0), (2, 1), (1, 2)] then 1 else 0) 0 3 20 = some none := by decide

/-- **C132** is violated on cyclic matrices: the promised ValueError is not raised when the cycle passes through the source,
because the list of the source is consumed instead of copied; a walk visiting the source twice is returned as a path. -/
theorem C132_cycle_through_source_violated : ∃ (dag : Nat → Nat → Int) (L : List (List Nat × Int)),
    Relation.TransGen (EdgeB (fun x => decide (x ≠ 0)) 4 dag) 0 0 ∧
      (∀ fuel, findAllPaths (fun x => decide (x ≠ 0)) 4 dag 0 2 (20 + fuel) = some (some L)) ∧
      ∃ p ∈ L.map Prod.fst, ¬ p.Nodup := by
  refine ⟨fun j i => if (j, i) ∈ [(1, 0), (2, 0), (0, 1)] then 1 else 0, [([0, 1, 0, 2], 1), ([0, 2], 1)],
    .tail (.single (b := 1) (by unfold EdgeB; decide)) (by unfold EdgeB; decide), fun fuel => ?_,
    [0, 1, 0, 2], by simp, by decide⟩
  rw [show 20 + fuel = (11 + fuel) + 9 by omega]
  have : ∀ (adj : Nat → List Nat) (f : Nat), adj 1 = [0] → adj 2 = [] → dfsRun 4 adj 0 2 (f + 9)
      ⟨[(0, [1, 2])], []⟩ = some (some [[0, 1, 0, 2], [0, 2]]) := by
    intro adj f h0 h2
    cases f <;> simp [dfsRun, dfsStep, sourceRem, h0, h2]
  unfold findAllPaths
  rw [show toIndices (fun x => decide (x ≠ 0)) 4
      (fun j i => if (j, i) ∈ [(1, 0), (2, 0), (0, 1)] then (1 : Int) else 0) 0 = [1, 2] by decide, this _ _ (by decide) (by decide)]
  decide

/-- **C132 violated** on a longer cycle: with `0 → 1 → 3 → 0` and `0 → 2`, the walk round the cycle goes on with the edges of `0` that are left. -/
theorem C132_longer_cycle_violated : ∃ (dag : Nat → Nat → Int) (L : List (List Nat × Int)),
    (∀ fuel, findAllPaths (fun x => decide (x ≠ 0)) 5 dag 0 2 (20 + fuel) = some (some L)) ∧
      L.map Prod.fst = [[0, 1, 3, 0, 2], [0, 2]] := by
  refine ⟨fun j i => if (j, i) ∈ [(1, 0), (2, 0), (3, 1), (0, 3)] then 1 else 0, [([0, 1, 3, 0, 2], 1), ([0, 2], 1)], fun fuel => ?_, rfl⟩
  rw [show 20 + fuel = (9 + fuel) + 11 by omega]
  have : ∀ (adj : Nat → List Nat) (f : Nat), adj 1 = [3] → adj 3 = [0] → adj 2 = [] → dfsRun 5 adj 0 2 (f + 11)
      ⟨[(0, [1, 2])], []⟩ = some (some [[0, 1, 3, 0, 2], [0, 2]]) := by
    intro adj f h0 h1 h2
    cases f <;> simp [dfsRun, dfsStep, sourceRem, h0, h1, h2]
  unfold findAllPaths
  rw [show toIndices (fun x => decide (x ≠ 0)) 5
      (fun j i => if (j, i) ∈ [(1, 0), (2, 0), (3, 1), (0, 3)] then (1 : Int) else 0) 0 = [1, 2] by decide,
    this _ _ (by decide) (by decide) (by decide)]
  decide

/-! ## C47 -/

/-- Number of samples in which the direction `i → j` (row `j`, column `i`) is present, with the given sign if signs are
split. -/
def samplesWith {R : Type} (exceeds : R → Bool) (sign : R → Int) (split : Bool) (samples : List (Nat → Nat → R))
    (j i : Nat) (sg : Int) : Nat :=
  samples.countP fun am => exceeds (am j i) && decide ((if split then sign (am j i) else 0) = sg)

theorem indexPairs_nodup (n : Nat) : (indexPairs n).Nodup := by
  unfold indexPairs
  rw [List.nodup_flatMap]
  refine ⟨fun i _ => List.nodup_range.map (by intro a b h; simpa using h), ?_⟩
  refine List.nodup_range.imp fun {a b} hab => ?_
  intro p hp hq
  rw [List.mem_map] at hp hq
  obtain ⟨x, -, rfl⟩ := hp
  obtain ⟨y, -, h⟩ := hq
  exact hab (by simpa using (congrArg Prod.fst h).symm)

theorem mem_sampleDirections {R : Type} (exceeds : R → Bool) (sign : R → Int) (split : Bool) (n : Nat)
    (am : Nat → Nat → R) (d : Nat × Nat × Int) :
    d ∈ sampleDirections exceeds sign split n am ↔ d.1 < n ∧ d.2.1 < n ∧ exceeds (am d.1 d.2.1) = true ∧
      (if split then sign (am d.1 d.2.1) else 0) = d.2.2 := by
  unfold sampleDirections
  rw [List.mem_map]
  constructor
  · rintro ⟨p, hp, rfl⟩
    rw [List.mem_filter, mem_indexPairs] at hp
    exact ⟨hp.1.1, hp.1.2, hp.2, rfl⟩
  · rintro ⟨h1, h2, h3, h4⟩
    exact ⟨(d.1, d.2.1), List.mem_filter.2 ⟨(mem_indexPairs _ _).2 ⟨h1, h2⟩, h3⟩, by simp [h4]⟩

theorem sampleDirections_nodup {R : Type} (exceeds : R → Bool) (sign : R → Int) (split : Bool) (n : Nat)
    (am : Nat → Nat → R) : (sampleDirections exceeds sign split n am).Nodup := by
  unfold sampleDirections
  refine List.Nodup.map_on ?_ ((indexPairs_nodup n).filter _)
  intro a _ b _ h
  simp only [Prod.mk.injEq] at h
  exact Prod.ext h.1 h.2.1

theorem count_flatMap_samples {R : Type} (exceeds : R → Bool) (sign : R → Int) (split : Bool) (n : Nat)
    (samples : List (Nat → Nat → R)) (d : Nat × Nat × Int) (h1 : d.1 < n) (h2 : d.2.1 < n) :
    (samples.flatMap (sampleDirections exceeds sign split n)).count d =
      samplesWith exceeds sign split samples d.1 d.2.1 d.2.2 := by
  unfold samplesWith
  induction samples with
  | nil => rfl
  | cons am samples ih =>
    rw [List.flatMap_cons, List.count_append, ih, List.countP_cons, Nat.add_comm]
    congr 1
    rw [(sampleDirections_nodup exceeds sign split n am).count]
    have := mem_sampleDirections exceeds sign split n am d
    by_cases hm : d ∈ sampleDirections exceeds sign split n am
    · have h3 := this.1 hm
      simp [hm, h3.2.2.1, h3.2.2.2]
    · have h3 : ¬ (exceeds (am d.1 d.2.1) = true ∧ (if split then sign (am d.1 d.2.1) else 0) = d.2.2) :=
        fun h => hm (this.2 ⟨h1, h2, h⟩)
      simp only [hm, if_false, Bool.and_eq_true, decide_eq_true_eq, h3]

/-- **C47**: for every list of bootstrap matrices the reported rows are distinct directions; each comes with the number of
samples containing it, which is positive; counts are non-increasing; every direction present in some sample is reported,
unless `n_directions` rows with counts at least as large are reported. -/
theorem C47_direction_counts {R : Type} (exceeds : R → Bool) (sign : R → Int) (split : Bool) (n : Nat)
    (sortDesc : List ((Nat × Nat × Int) × Nat) → List ((Nat × Nat × Int) × Nat))
    (hperm : ∀ l, (sortDesc l).Perm l) (hdesc : ∀ l, (sortDesc l).Pairwise fun a b => b.2 ≤ a.2)
    (nDirections : Option Nat) (samples : List (Nat → Nat → R)) :
    let L := directionCounts exceeds sign split n sortDesc nDirections samples
    (L.map Prod.fst).Nodup ∧ L.Pairwise (fun a b => b.2 ≤ a.2) ∧
    (∀ j i sg c, ((j, i, sg), c) ∈ L → j < n ∧ i < n ∧ c = samplesWith exceeds sign split samples j i sg ∧ 0 < c) ∧
    (∀ k, nDirections = some k → L.length ≤ k) ∧
    (∀ j i sg, j < n → i < n → 0 < samplesWith exceeds sign split samples j i sg →
      (∃ c, ((j, i, sg), c) ∈ L) ∨
      (∃ k, nDirections = some k ∧ L.length = k ∧ ∀ r ∈ L, samplesWith exceeds sign split samples j i sg ≤ r.2)) := by
  intro L
  -- the list before truncation
  obtain ⟨full, hL, hfull⟩ : ∃ full, L = (nDirections.elim full fun k => full.take k) ∧
      (full.Perm ((samples.flatMap (sampleDirections exceeds sign split n)).dedup.map fun d =>
        (d, (samples.flatMap (sampleDirections exceeds sign split n)).count d)) ∧
        full.Pairwise fun a b => b.2 ≤ a.2) := by
    by_cases h0 : (samples.flatMap (sampleDirections exceeds sign split n)).length = 0
    · refine ⟨[], ?_, ?_, List.Pairwise.nil⟩
      · simp only [L, directionCounts, h0, if_true]
        cases nDirections <;> simp
      · rw [List.length_eq_zero_iff.1 h0]; simp
    · exact ⟨_, by simp only [L, directionCounts, h0, if_false], hperm _, hdesc _⟩
  obtain ⟨hp, hd⟩ := hfull
  have hnd : (full.map Prod.fst).Nodup := by
    refine (hp.map Prod.fst).nodup_iff.2 ?_
    rw [List.map_map]
    have : (Prod.fst ∘ fun d => (d, (samples.flatMap (sampleDirections exceeds sign split n)).count d)) = id := rfl
    rw [this, List.map_id]
    exact List.nodup_dedup _
  have hmem : ∀ r, r ∈ full ↔ r.1 ∈ samples.flatMap (sampleDirections exceeds sign split n) ∧
      r.2 = (samples.flatMap (sampleDirections exceeds sign split n)).count r.1 := by
    intro r
    rw [hp.mem_iff, List.mem_map]
    constructor
    · rintro ⟨d, hd, rfl⟩; exact ⟨List.mem_dedup.1 hd, rfl⟩
    · rintro ⟨h1, h2⟩; exact ⟨r.1, List.mem_dedup.2 h1, Prod.ext rfl h2.symm⟩
  have hrange : ∀ r ∈ full, r.1.1 < n ∧ r.1.2.1 < n := by
    intro r hr
    obtain ⟨h1, -⟩ := (hmem r).1 hr
    rw [List.mem_flatMap] at h1
    obtain ⟨am, -, h1⟩ := h1
    have := (mem_sampleDirections exceeds sign split n am r.1).1 h1
    exact ⟨this.1, this.2.1⟩
  have hsub : L.Sublist full := by
    rw [hL]
    cases nDirections with
    | none => exact List.Sublist.refl _
    | some k => exact List.take_sublist _ _
  refine ⟨(hsub.map Prod.fst).nodup hnd, hd.sublist hsub, ?_, ?_, ?_⟩
  · intro j i sg c hr
    have hr' := hsub.subset hr
    obtain ⟨h1, h2⟩ := hrange _ hr'
    obtain ⟨h3, h4⟩ := (hmem _).1 hr'
    dsimp only at h1 h2 h3 h4
    refine ⟨h1, h2, ?_, ?_⟩
    · rw [h4]; exact count_flatMap_samples exceeds sign split n samples (j, i, sg) h1 h2
    · rw [h4]; exact List.count_pos_iff.2 h3
  · rintro k rfl
    rw [hL]
    simp
  · intro j i sg hj hi hpos
    have hc := count_flatMap_samples exceeds sign split n samples (j, i, sg) hj hi
    have hin : ((j, i, sg), samplesWith exceeds sign split samples j i sg) ∈ full := by
      rw [hmem]
      dsimp only at hc ⊢
      exact ⟨List.count_pos_iff.1 (by rw [hc]; exact hpos), hc.symm⟩
    cases nDirections with
    | none => left; exact ⟨_, by rw [hL]; exact hin⟩
    | some k =>
      rw [hL]
      simp only [Option.elim_some]
      rw [← List.take_append_drop k full, List.mem_append] at hin
      rcases hin with hin | hin
      · exact Or.inl ⟨_, hin⟩
      · right
        have hk : k < full.length := by
          by_contra h
          rw [List.drop_eq_nil_of_le (by omega)] at hin
          cases hin
        refine ⟨k, rfl, by simp; omega, fun r hr => ?_⟩
        rw [← List.take_append_drop k full, List.pairwise_append] at hd
        exact hd.2.2 r hr _ hin

/-- **C47** for `get_probabilities`: the numerator is the number of samples containing the direction. -/
theorem C47_probability_counts {R : Type} (exceeds : R → Bool) (samples : List (Nat → Nat → R)) (i j : Nat) :
    probabilityCounts exceeds samples j i = samples.countP (fun am => exceeds (am j i)) := by
  unfold probabilityCounts
  have : ∀ (l : List (Nat → Nat → R)) (acc : Nat),
      l.foldl (fun acc am => acc + if exceeds (am j i) then 1 else 0) acc = acc + l.countP fun am => exceeds (am j i) := by
    intro l
    induction l with
    | nil => simp
    | cons a l ih => intro acc; rw [List.foldl_cons, ih, List.countP_cons]; omega
  rw [this, Nat.zero_add]

/-- Concrete case with a real sorting function: two samples, direction 0 → 1 in both, 1 → 2 in one. -/
example : (directionCounts (R := Int) (fun x => decide (x ≠ 0)) Int.sign false 3
    (fun l => l.insertionSort fun a b => b.2 ≤ a.2) (some 5)
    [fun j i => if (j, i) = (1, 0) ∨ (j, i) = (2, 1) then 1 else 0, fun j i => if (j, i) = (1, 0) then -1 else 0]) =
      [((1, 0, 0), 2), ((2, 1, 0), 1)] := by decide

end CL.Lingam
