import Verif.Model.FAS
import Verif.Props.Skeleton

/-!
# C51: the fast adjacency search
-/
namespace CL
open GG
variable {n : Nat}

/-! ## The graph component does not depend on the bookkeeping -/

theorem fasStable_sim (ind : CI n) (k : Know n) (d : Nat) (xs : List (Fin n)) : ∀ (st : FasSt n) (st' : SkSt n), st.G = st'.G → st.rem = st'.rem →
    (xs.foldl (fasStableX ind k d) st).G = (xs.foldl (stableX ind k d) st').G ∧
    (xs.foldl (fasStableX ind k d) st).rem = (xs.foldl (stableX ind k d) st').rem := by
  have hy : ∀ (x : Fin n) (nx ys : List (Fin n)) (st : FasSt n) (st' : SkSt n), st.G = st'.G → st.rem = st'.rem →
      (ys.foldl (fasStableY ind k d x nx) st).G = (ys.foldl (stableY ind k d x nx) st').G ∧
      (ys.foldl (fasStableY ind k d x nx) st).rem = (ys.foldl (stableY ind k d x nx) st').rem := by
    intro x nx ys
    induction ys with
    | nil => intro st st' h1 h2; exact ⟨h1, h2⟩
    | cons y ys ih =>
      intro st st' h1 h2
      rcases stableY_eq ind k d x nx st' y _ rfl with h | ⟨h, -⟩ <;> rw [List.foldl_cons, List.foldl_cons, h] <;> apply ih <;>
        first | exact h1 | (simp only [fasStableY, h2])
  induction xs with
  | nil => intro st st' h1 h2; exact ⟨h1, h2⟩
  | cons x xs ih =>
    intro st st' h1 h2
    have : (fasStableX ind k d st x).G = (stableX ind k d st' x).G ∧ (fasStableX ind k d st x).rem = (stableX ind k d st' x).rem := by
      unfold fasStableX stableX
      dsimp only
      rw [h1]
      split
      · exact ⟨h1, h2⟩
      · exact hy x _ _ st st' h1 h2
    exact ih _ _ this.1 this.2

theorem fasRemove_fst (sep : Sep n) (ps : List (Fin n × Fin n)) : ∀ (s : GG n × SSet n),
    (ps.foldl (fasRemove sep) s).1 = ps.foldl (fun G p => G.removeIfEdge p.1 p.2) s.1 := by
  induction ps with
  | nil => intro s; rfl
  | cons p ps ih => intro s; rw [List.foldl_cons, ih]; rfl

theorem fasStableDepth_G (ind : CI n) (k : Know n) (d : Nat) (st : FasSt n) (sep : Sep n) :
    (fasStableDepth ind k d st).G = (stableDepth ind k d st.G sep).1 := by
  obtain ⟨h1, h2⟩ := fasStable_sim ind k d (List.finRange n) { st with rem := [] } ⟨st.G, sep, []⟩ rfl rfl
  unfold fasStableDepth stableDepth
  dsimp only
  rw [fasRemove_fst, h1, h2]

theorem fasEagerYs_G (ind : CI n) (k : Know n) (d : Nat) (x : Fin n) (nx ys : List (Fin n)) : ∀ (st : FasSt n) (s : GG n × Sep n), st.G = s.1 →
    (fasEagerYs ind k d x nx ys st).G = (eagerYs ind k d x nx ys s).1 := by
  induction ys with
  | nil => intro st s h; exact h
  | cons y ys ih =>
    intro st s h
    obtain ⟨G, sep⟩ := s
    dsimp only at h
    subst h
    rw [fasEagerYs, eagerYs]
    split
    · rfl
    · apply ih
      cases (combos (nx.filter (· ≠ y)) d).find? (ind x y) <;> rfl

theorem fasEagerDepth_G (ind : CI n) (k : Know n) (d : Nat) (st : FasSt n) (sep : Sep n) :
    (fasEagerDepth ind k d st).G = (eagerDepth ind k d st.G sep).1 := by
  have : ∀ (xs : List (Fin n)) (st : FasSt n) (s : GG n × Sep n), st.G = s.1 →
      (xs.foldl (fasEagerX ind k d) st).G = (xs.foldl (eagerX ind k d) s).1 := by
    intro xs
    induction xs with
    | nil => intro st s h; exact h
    | cons x xs ih =>
      intro st s h
      apply ih
      unfold fasEagerX eagerX
      dsimp only
      rw [h]
      split
      · exact h
      · exact fasEagerYs_G ind k d x _ _ st s h
  exact this _ _ _ rfl

/-! ## Invariants of the separating-set table -/

/-- The test, called on the pair in one of the two orders, declared independence given a set of fewer than `d` other nodes. -/
def IndLt (ind : CI n) (d : Nat) (x y : Fin n) (S : List (Fin n)) : Prop := Ind2 ind x y S ∧ S.length < d

theorem IndLt.symm {ind : CI n} {d : Nat} {x y : Fin n} {S : List (Fin n)} (h : IndLt ind d x y S) : IndLt ind d y x S :=
  ⟨h.1.symm, h.2⟩

theorem IndLt.mono {ind : CI n} {d e : Nat} {x y : Fin n} {S : List (Fin n)} (h : IndLt ind d x y S) (hde : d ≤ e) : IndLt ind e x y S :=
  ⟨h.1, by have := h.2; omega⟩

theorem indLt_of_combo {ind : CI n} {d : Nat} {x y : Fin n} {nx S : List (Fin n)} (hx : x ∉ nx) (hn : nx.Nodup)
    (hS : S ∈ combos (nx.filter (· ≠ y)) d) (hi : ind x y S = true) : IndLt ind (d + 1) x y S :=
  ⟨ind2_of_combo hx hn hS hi, by have := ((combos_mem _ _ _).1 hS).2; omega⟩

/-- What is recorded for the pair: only nodes of separating sets, and all of some separating set unless banned. -/
def SSGood (ind : CI n) (k : Know n) (d : Nat) (x y : Fin n) (T : List (Fin n)) : Prop :=
  (∀ z ∈ T, ∃ S', z ∈ S' ∧ IndLt ind d x y S') ∧ ((∃ S', S' ⊆ T ∧ IndLt ind d x y S') ∨ k.ban x y = true)

/-- The sharper statement for eager mode. -/
def SSExact (ind : CI n) (k : Know n) (d : Nat) (x y : Fin n) (T : List (Fin n)) : Prop :=
  IndLt ind d x y T ∨ (k.ban x y = true ∧ T = [])

theorem SSGood.symm {ind : CI n} {k : Know n} {d : Nat} {x y : Fin n} {T : List (Fin n)} (h : SSGood ind k d x y T) : SSGood ind k d y x T :=
  ⟨fun z hz => (h.1 z hz).imp fun _ h => ⟨h.1, h.2.symm⟩, h.2.imp (fun ⟨S, h1, h2⟩ => ⟨S, h1, h2.symm⟩) (fun h => by rw [Know.ban_symm]; exact h)⟩

theorem SSGood.mono {ind : CI n} {k : Know n} {d e : Nat} {x y : Fin n} {T : List (Fin n)} (h : SSGood ind k d x y T) (hde : d ≤ e) :
    SSGood ind k e x y T :=
  ⟨fun z hz => (h.1 z hz).imp fun _ h => ⟨h.1, h.2.mono hde⟩, h.2.imp (fun ⟨S, h1, h2⟩ => ⟨S, h1, h2.mono hde⟩) id⟩

theorem SSExact.symm {ind : CI n} {k : Know n} {d : Nat} {x y : Fin n} {T : List (Fin n)} (h : SSExact ind k d x y T) : SSExact ind k d y x T :=
  h.imp IndLt.symm (fun h => ⟨by rw [Know.ban_symm]; exact h.1, h.2⟩)

theorem SSExact.mono {ind : CI n} {k : Know n} {d e : Nat} {x y : Fin n} {T : List (Fin n)} (h : SSExact ind k d x y T) (hde : d ≤ e) :
    SSExact ind k e x y T := h.imp (fun h => h.mono hde) id

theorem SSExact.good {ind : CI n} {k : Know n} {d : Nat} {x y : Fin n} {T : List (Fin n)} (h : SSExact ind k d x y T) : SSGood ind k d x y T := by
  rcases h with h | ⟨h, rfl⟩
  · exact ⟨fun z hz => ⟨T, hz, h⟩, Or.inl ⟨T, fun _ h => h, h⟩⟩
  · exact ⟨by simp, Or.inr h⟩

theorem setBoth_apply (ss : SSet n) (x y : Fin n) (v : List (Fin n)) (a b : Fin n) :
    setBoth ss x y v a b = if (a = x ∧ b = y) ∨ (a = y ∧ b = x) then some v else ss a b := by
  unfold setBoth upd
  grind

/-- Between depths: table entries exist exactly for the removed pairs, agree for both orders and are justified (`Q`). -/
structure FasInv (Q : Nat → Fin n → Fin n → List (Fin n) → Prop) (ind : CI n) (d : Nat) (st : FasSt n) : Prop where
  und : Und st.G
  symm : SepSymm st.sep
  sound : ∀ x y L, st.sep x y = some L → ∀ S ∈ L, ∀ z ∈ S, ∃ S', z ∈ S' ∧ IndLt ind d x y S'
  ssSymm : ∀ x y, st.ss x y = st.ss y x
  ssIff : ∀ x y, x ≠ y → (st.ss x y = none ↔ st.G.g x y ≠ .null)
  ssDiag : ∀ x, st.ss x x = none
  ss : ∀ x y T, st.ss x y = some T → Q d x y T

/-! ### stable mode -/

theorem appendBoth_soundLt {ind : CI n} {d : Nat} {s : Sep n} {x y : Fin n} (hxy : x ≠ y) (hs : SepSymm s)
    (h : ∀ x y L, s x y = some L → ∀ S ∈ L, ∀ z ∈ S, ∃ S', z ∈ S' ∧ IndLt ind d x y S')
    (v : List (Fin n)) (hv : ∀ z ∈ v, ∃ S', z ∈ S' ∧ IndLt ind d x y S') :
    ∀ a b L, appendBoth s x y v a b = some L → ∀ S ∈ L, ∀ z ∈ S, ∃ S', z ∈ S' ∧ IndLt ind d a b S' := by
  intro a b L hL S hS z hz
  rw [appendBoth_apply s hxy hs] at hL
  split at hL
  · rename_i hc
    simp at hL
    subst hL
    rcases List.mem_append.1 hS with hS | hS
    · cases hab : s a b with
      | none => simp [hab] at hS
      | some L0 => simp [hab] at hS; exact h a b L0 hab S hS z hz
    · simp at hS
      subst hS
      obtain ⟨S', h1, h2⟩ := hv z hz
      rcases hc with ⟨rfl, rfl⟩ | ⟨rfl, rfl⟩
      · exact ⟨S', h1, h2⟩
      · exact ⟨S', h1, h2.symm⟩
  · exact h a b L hL S hS z hz

/-- Something is recorded for the pair and covers a separating set, unless the pair is banned. -/
def SepGoodLt (ind : CI n) (k : Know n) (d : Nat) (sep : Sep n) (x y : Fin n) : Prop :=
  ∃ L, sep x y = some L ∧ ((∃ S ∈ L, ∃ S', S' ⊆ S ∧ IndLt ind d x y S') ∨ k.ban x y = true)

theorem appendBoth_goodLt_old {ind : CI n} {k : Know n} {d : Nat} {s : Sep n} {x y : Fin n} (hxy : x ≠ y) (hs : SepSymm s)
    (v : List (Fin n)) {a b : Fin n} (h : SepGoodLt ind k d s a b) : SepGoodLt ind k d (appendBoth s x y v) a b := by
  obtain ⟨L, hL, hg⟩ := h
  by_cases hc : (a = x ∧ b = y) ∨ (a = y ∧ b = x)
  · refine ⟨L ++ [v], ?_, ?_⟩
    · rw [appendBoth_apply s hxy hs, if_pos hc, hL]; rfl
    · rcases hg with ⟨S, hS, hS'⟩ | hg
      · exact Or.inl ⟨S, by simp [hS], hS'⟩
      · exact Or.inr hg
  · exact ⟨L, by rw [appendBoth_apply s hxy hs, if_neg hc, hL], hg⟩

theorem appendBoth_goodLt_new {ind : CI n} {k : Know n} {d : Nat} {s : Sep n} {x y : Fin n} (hxy : x ≠ y) (hs : SepSymm s)
    (v : List (Fin n)) (hv : (∃ S', S' ⊆ v ∧ IndLt ind d x y S') ∨ k.ban x y = true) :
    SepGoodLt ind k d (appendBoth s x y v) x y ∧ SepGoodLt ind k d (appendBoth s x y v) y x := by
  constructor
  · refine ⟨_, by rw [appendBoth_apply s hxy hs, if_pos (Or.inl ⟨rfl, rfl⟩)], ?_⟩
    exact hv.imp (fun ⟨S', h⟩ => ⟨v, by simp, S', h⟩) id
  · refine ⟨_, by rw [appendBoth_apply s hxy hs, if_pos (Or.inr ⟨rfl, rfl⟩)], ?_⟩
    exact hv.imp (fun ⟨S', h, h'⟩ => ⟨v, by simp, S', h, h'.symm⟩) (fun h => by rw [Know.ban_symm]; exact h)

/-- During a stable depth. -/
structure FasStInv (ind : CI n) (k : Know n) (d : Nat) (G : GG n) (ss : SSet n) (st : FasSt n) : Prop where
  hG : st.G = G
  hss : st.ss = ss
  symm : SepSymm st.sep
  sound : ∀ x y L, st.sep x y = some L → ∀ S ∈ L, ∀ z ∈ S, ∃ S', z ∈ S' ∧ IndLt ind d x y S'
  rem : ∀ p ∈ st.rem, p.1 ≠ p.2 ∧ SepGoodLt ind k d st.sep p.1 p.2

theorem fasStableY_inv {ind : CI n} {k : Know n} {d : Nat} {G : GG n} {ss : SSet n} {x : Fin n} {nx : List (Fin n)}
    (hx : x ∉ nx) (hn : nx.Nodup) {st : FasSt n} (h : FasStInv ind k (d + 1) G ss st) {y : Fin n} (hy : y ∈ nx) :
    FasStInv ind k (d + 1) G ss (fasStableY ind k d x nx st y) := by
  have hxy : x ≠ y := by rintro rfl; exact hx hy
  obtain ⟨h1, h2⟩ := stableTests_spec ind x y (combos (nx.filter (· ≠ y)) d)
    (if k.ban x y then st.rem ++ [(x, y), (y, x)] else st.rem)
  unfold fasStableY
  dsimp only
  refine ⟨h.hG, h.hss, appendBoth_symm hxy h.symm _, appendBoth_soundLt hxy h.symm h.sound _ ?_, ?_⟩
  · intro z hz
    obtain ⟨S, hS, hi, hzS⟩ := (h2 z).1 hz
    exact ⟨S, hzS, indLt_of_combo hx hn hS hi⟩
  · intro p hp
    dsimp only at hp ⊢
    have hcase : p ∈ st.rem ∨ ((p = (x, y) ∨ p = (y, x)) ∧
        ((∃ S ∈ combos (nx.filter (· ≠ y)) d, ind x y S = true) ∨ k.ban x y = true)) := by
      rcases (h1 p).1 hp with hp | ⟨hp, hS⟩
      · by_cases hb : k.ban x y = true
        · rw [if_pos hb] at hp
          rcases List.mem_append.1 hp with hp | hp
          · exact Or.inl hp
          · exact Or.inr ⟨by simpa using hp, Or.inr hb⟩
        · rw [if_neg hb] at hp; exact Or.inl hp
      · exact Or.inr ⟨hp, Or.inl hS⟩
    rcases hcase with hp | ⟨hp, hv⟩
    · exact ⟨(h.rem p hp).1, appendBoth_goodLt_old hxy h.symm _ (h.rem p hp).2⟩
    · have hnew := appendBoth_goodLt_new (k := k) hxy h.symm _ (hv.imp (fun ⟨S, hS, hi⟩ =>
        ⟨S, fun z hz => (h2 z).2 ⟨S, hS, hi, hz⟩, indLt_of_combo hx hn hS hi⟩) id)
      rcases hp with rfl | rfl
      · exact ⟨hxy, hnew.1⟩
      · exact ⟨hxy.symm, hnew.2⟩

theorem fasStableX_inv {ind : CI n} {k : Know n} {d : Nat} {G : GG n} (hu : Und G) {ss : SSet n} (x : Fin n) {st : FasSt n}
    (h : FasStInv ind k (d + 1) G ss st) : FasStInv ind k (d + 1) G ss (fasStableX ind k d st x) := by
  unfold fasStableX
  dsimp only
  split
  · exact h
  · have hx : x ∉ st.G.neighbors x := fun hy => (mem_neighbors _ _ _).1 hy (by rw [h.hG]; exact hu.diag x)
    have key : ∀ (ys : List (Fin n)) (s : FasSt n), ys ⊆ st.G.neighbors x → FasStInv ind k (d + 1) G ss s →
        FasStInv ind k (d + 1) G ss (ys.foldl (fasStableY ind k d x (st.G.neighbors x)) s) := by
      intro ys
      induction ys with
      | nil => intro s _ h; exact h
      | cons y ys ih =>
        intro s hs h
        exact ih _ (fun z hz => hs (by simp [hz])) (fasStableY_inv hx (nodup_neighbors _ _) h (hs (by simp)))
    exact key _ st (fun _ h => h) h

theorem fasRemove_ss {sep : Sep n} (hs : SepSymm sep) (ps : List (Fin n × Fin n)) (hp : ∀ p ∈ ps, sep p.1 p.2 ≠ none) :
    ∀ (s : GG n × SSet n) (a b : Fin n), (ps.foldl (fasRemove sep) s).2 a b =
      if (a, b) ∈ ps ∨ (b, a) ∈ ps then some ((sep a b).getD []).flatten else s.2 a b := by
  induction ps with
  | nil => intro s a b; simp
  | cons p ps ih =>
    intro s a b
    rw [List.foldl_cons, ih (fun q hq => hp q (by simp [hq]))]
    obtain ⟨x, y⟩ := p
    have h0 := hp (x, y) (by simp)
    dsimp only at h0
    obtain ⟨L, hL⟩ := Option.ne_none_iff_exists'.1 h0
    have hL' : sep y x = some L := by rw [← hs]; exact hL
    by_cases hc : (a, b) ∈ ps ∨ (b, a) ∈ ps
    · rw [if_pos hc, if_pos (by simp only [List.mem_cons]; tauto)]
    · rw [if_neg hc]
      simp only [fasRemove, hL, Option.elim, setBoth_apply, List.mem_cons, Prod.mk.injEq]
      by_cases h1 : a = x ∧ b = y
      · obtain ⟨rfl, rfl⟩ := h1; simp [hL]
      · by_cases h2 : a = y ∧ b = x
        · obtain ⟨rfl, rfl⟩ := h2; simp [hL']
        · have h3 : ¬ (b = x ∧ a = y) := fun h => h2 ⟨h.2, h.1⟩
          simp only [h1, h2, h3, or_self, if_false, false_or]
          rw [if_neg hc]

theorem fasStableDepth_inv {ind : CI n} {k : Know n} {d : Nat} {st : FasSt n} (h : FasInv (SSGood ind k) ind d st) :
    FasInv (SSGood ind k) ind (d + 1) (fasStableDepth ind k d st) := by
  have key : ∀ (xs : List (Fin n)) (s : FasSt n), FasStInv ind k (d + 1) st.G st.ss s →
      FasStInv ind k (d + 1) st.G st.ss (xs.foldl (fasStableX ind k d) s) := by
    intro xs
    induction xs with
    | nil => intro s h; exact h
    | cons x xs ih => intro s hs; exact ih _ (fasStableX_inv h.und x hs)
  have hI := key (List.finRange n) { st with rem := [] } ⟨rfl, rfl, h.symm, fun x y L hL S hS z hz =>
    (h.sound x y L hL S hS z hz).imp fun _ h => ⟨h.1, h.2.mono (Nat.le_succ d)⟩, by simp⟩
  have hrem : ∀ p ∈ ((List.finRange n).foldl (fasStableX ind k d) { st with rem := [] }).rem,
      ((List.finRange n).foldl (fasStableX ind k d) { st with rem := [] }).sep p.1 p.2 ≠ none := fun p hp => by
    obtain ⟨L, hL, -⟩ := (hI.rem p hp).2
    rw [hL]; simp
  have hss := fasRemove_ss hI.symm _ hrem (((List.finRange n).foldl (fasStableX ind k d) { st with rem := [] }).G, st.ss)
  have hu' : Und ((List.finRange n).foldl (fasStableX ind k d) { st with rem := [] }).G := by rw [hI.hG]; exact h.und
  obtain ⟨r1, r2, r3⟩ := removeAll_spec ((List.finRange n).foldl (fasStableX ind k d) { st with rem := [] }).rem hu'
  have hgood : ∀ x y, (x, y) ∈ ((List.finRange n).foldl (fasStableX ind k d) { st with rem := [] }).rem →
      SSGood ind k (d + 1) x y ((((List.finRange n).foldl (fasStableX ind k d) { st with rem := [] }).sep x y).getD []).flatten := by
    intro x y hp
    obtain ⟨L, hL, hg⟩ := (hI.rem _ hp).2
    dsimp only at hL hg
    rw [hL]
    refine ⟨fun z hz => ?_, hg.imp (fun ⟨S, hS, S', h1, h2⟩ => ⟨S', fun z hz => ?_, h2⟩) id⟩
    · obtain ⟨S, hS, hzS⟩ := List.mem_flatten.1 hz
      exact hI.sound x y L hL S hS z hzS
    · exact List.mem_flatten.2 ⟨S, hS, h1 hz⟩
  unfold fasStableDepth
  dsimp only
  refine ⟨by rw [fasRemove_fst]; exact r1, hI.symm, hI.sound, ?_, ?_, ?_, ?_⟩
  all_goals dsimp only
  all_goals rw [hI.hss]
  · intro x y
    rw [hss, hss, hI.symm x y]
    simp only [h.ssSymm x y, or_comm]
  · intro x y hxy
    rw [hss, fasRemove_fst, r3, hI.hG]
    have := h.ssIff x y hxy
    split
    · rename_i hc; simp; tauto
    · rename_i hc; simp; tauto
  · intro x
    rw [hss, if_neg]
    · exact h.ssDiag x
    rintro (hp | hp) <;> exact (hI.rem _ hp).1 rfl
  · intro x y T hT
    rw [hss] at hT
    split at hT
    · rename_i hc
      injection hT with hT
      rw [← hT]
      rcases hc with hc | hc
      · exact hgood x y hc
      · rw [hI.symm]
        exact (hgood y x hc).symm
    · exact (h.ss x y T hT).mono (Nat.le_succ d)

/-! ### eager mode -/

theorem removeTwice_fas {ind : CI n} {k : Know n} {d : Nat} {st : FasSt n} (h : FasInv (SSExact ind k) ind d st) {x y : Fin n} (hxy : x ≠ y)
    (v : List (Fin n)) (hv : SSExact ind k d x y v) :
    FasInv (SSExact ind k) ind d
      ⟨(st.G.removeIfEdge x y).removeIfEdge y x, appendBoth st.sep x y v, setBoth st.ss x y v, st.rem⟩ := by
  refine ⟨removeTwice_und h.und x y, appendBoth_symm hxy h.symm _, appendBoth_soundLt hxy h.symm h.sound _ hv.good.1, ?_, ?_, ?_, ?_⟩
  all_goals dsimp only
  · intro a b
    rw [setBoth_apply, setBoth_apply, h.ssSymm a b]
    grind
  · intro a b hab
    rw [setBoth_apply, removeTwice_g h.und]
    have := h.ssIff a b hab
    split <;> simp [this]
  · intro a
    rw [setBoth_apply, if_neg (by rintro (⟨rfl, rfl⟩ | ⟨rfl, rfl⟩) <;> exact hxy rfl), h.ssDiag]
  · intro a b T hT
    rw [setBoth_apply] at hT
    split at hT
    · rename_i hc
      injection hT with hT
      subst hT
      rcases hc with ⟨rfl, rfl⟩ | ⟨rfl, rfl⟩
      · exact hv
      · exact hv.symm
    · exact h.ss a b T hT

theorem fasEagerYs_inv {ind : CI n} {k : Know n} {d : Nat} {x : Fin n} {nx : List (Fin n)} (hnx : x ∉ nx) (hnd : nx.Nodup)
    (ys : List (Fin n)) (hy : ∀ y ∈ ys, x ≠ y) : ∀ (st : FasSt n), FasInv (SSExact ind k) ind (d + 1) st →
    FasInv (SSExact ind k) ind (d + 1) (fasEagerYs ind k d x nx ys st) := by
  induction ys with
  | nil => intro st h; exact h
  | cons y ys ih =>
    intro st h
    have hxy : x ≠ y := hy y (by simp)
    rw [fasEagerYs]
    split
    · rename_i hb
      exact removeTwice_fas h hxy [] (Or.inr ⟨hb, rfl⟩)
    · apply ih (fun y' hy' => hy y' (by simp [hy']))
      have hfin : ∀ r : FasSt n, FasInv (SSExact ind k) ind (d + 1) r →
          FasInv (SSExact ind k) ind (d + 1) ⟨r.G, appendBoth r.sep x y [], r.ss, r.rem⟩ := fun r hr =>
        ⟨hr.und, appendBoth_symm hxy hr.symm _, appendBoth_soundLt hxy hr.symm hr.sound [] (by simp), hr.ssSymm, hr.ssIff, hr.ssDiag, hr.ss⟩
      apply hfin
      split
      · rename_i S hS
        exact removeTwice_fas h hxy S (Or.inl (indLt_of_combo hnx hnd (List.mem_of_find?_eq_some hS) (List.find?_some hS)))
      · exact h

theorem fasEagerDepth_inv {ind : CI n} {k : Know n} {d : Nat} {st : FasSt n} (h : FasInv (SSExact ind k) ind d st) :
    FasInv (SSExact ind k) ind (d + 1) (fasEagerDepth ind k d st) := by
  have key : ∀ (xs : List (Fin n)) (s : FasSt n), FasInv (SSExact ind k) ind (d + 1) s →
      FasInv (SSExact ind k) ind (d + 1) (xs.foldl (fasEagerX ind k d) s) := by
    intro xs
    induction xs with
    | nil => intro s h; exact h
    | cons x xs ih =>
      intro s hs
      apply ih
      unfold fasEagerX
      dsimp only
      split
      · exact hs
      · have hx : x ∉ s.G.neighbors x := fun hy => (mem_neighbors _ _ _).1 hy (hs.und.diag x)
        exact fasEagerYs_inv hx (nodup_neighbors _ _) _ (by rintro y hy rfl; exact hx hy) s hs
  exact key _ _ ⟨h.und, h.symm, fun x y L hL S hS z hz => (h.sound x y L hL S hS z hz).imp fun _ h => ⟨h.1, h.2.mono (Nat.le_succ d)⟩,
    h.ssSymm, h.ssIff, h.ssDiag, fun x y T hT => (h.ss x y T hT).mono (Nat.le_succ d)⟩

/-! ## The whole loop -/

/-- The justification of an entry, depending on the mode. -/
def SSJust (stable : Bool) (ind : CI n) (k : Know n) : Nat → Fin n → Fin n → List (Fin n) → Prop :=
  if stable then SSGood ind k else SSExact ind k

theorem SSJust.good {stable : Bool} {ind : CI n} {k : Know n} {d : Nat} {x y : Fin n} {T : List (Fin n)}
    (h : SSJust stable ind k d x y T) : SSGood ind k d x y T := by
  cases stable
  · exact SSExact.good h
  · exact h

theorem fasLoop_spec (stable : Bool) {ind : CI n} {k : Know n} (depth : Option Nat)
    (f d : Nat) (st : FasSt n) (hf : n < f + d) (hf0 : 0 < f) (hd0 : ∀ D, depth = some D → d ≤ D + 1)
    (h : FasInv (SSJust stable ind k) ind d st)
    (hc : (stable = true ∨ ∀ a b, k.ban a b = false) → ∀ e < d, ClosedAt ind e st.G) :
    ∃ r d', fasLoop stable ind k depth f d st = some r ∧ FasInv (SSJust stable ind k) ind d' r ∧ (∀ D, depth = some D → d' ≤ D + 1) ∧
      ((stable = true ∨ ∀ a b, k.ban a b = false) → ∀ e, withinDepth depth e = true → ClosedAt ind e r.G) := by
  induction f generalizing d st with
  | zero => omega
  | succ f ih =>
    rw [fasLoop]
    by_cases hd : d < st.G.maxDegree ∧ withinDepth depth d = true
    · rw [if_pos hd]
      have hn := maxDegree_le_n st.G
      apply ih
      · omega
      · omega
      · intro D hD
        have := hd.2
        subst hD
        simp [withinDepth] at this
        omega
      · cases stable
        · exact fasEagerDepth_inv h
        · exact fasStableDepth_inv h
      · intro hk e he
        have hstep : (∀ a b, (if stable = true then fasStableDepth ind k d st else fasEagerDepth ind k d st).G.g a b
            ≠ .null → st.G.g a b ≠ .null) ∧
            ClosedAt ind d (if stable = true then fasStableDepth ind k d st else fasEagerDepth ind k d st).G := by
          cases stable
          · have := eagerDepth_closure (ind := ind) (k := k) (by simpa using hk) d st.G (fun _ _ => none) h.und
            rw [← fasEagerDepth_G] at this
            simpa using this
          · have := stableDepth_closure (ind := ind) (k := k) d st.G (fun _ _ => none) h.und
            rw [← fasStableDepth_G] at this
            simpa using this
        rcases Nat.lt_succ_iff_lt_or_eq.1 he with he | rfl
        · exact (hc hk e he).mono hstep.1
        · exact hstep.2
    · rw [if_neg hd]
      refine ⟨st, d, rfl, h, hd0, fun hk e hwe => ?_⟩
      by_cases he : e < d
      · exact hc hk e he
      · intro x y hxy S hS hl
        have h1 := length_of_sub hxy hS
        have h2 := length_neighbors_le st.G x
        exfalso
        apply hd
        refine ⟨by omega, ?_⟩
        cases depth with
        | none => rfl
        | some D => simp [withinDepth] at hwe ⊢; omega

theorem fas_spec (stable : Bool) (ind : CI n) (k : Know n) (depth : Option Nat) :
    ∃ (r : FasSt n) (d : Nat), fas stable ind k depth = some (r.G, r.ss) ∧ FasInv (SSJust stable ind k) ind d r ∧ (∀ D, depth = some D → d ≤ D + 1) ∧
      ((stable = true ∨ ∀ a b, k.ban a b = false) → ∀ e, withinDepth depth e = true → ClosedAt ind e r.G) := by
  obtain ⟨h1, h2, -⟩ := complete_spec (n := n)
  obtain ⟨r, d, hr, hi, hd, hc⟩ := fasLoop_spec stable (ind := ind) (k := k) depth (n + 1) 0
    ⟨GG.complete n, fun _ _ => none, fun _ _ => none, []⟩ (by omega) (by omega) (by intros; omega)
    ⟨h1, fun _ _ => rfl, by intro x y L h; simp at h, fun _ _ => rfl, by intro x y hxy; simpa using (h2 x y).2 hxy, fun _ => rfl,
      by intro x y T h; simp at h⟩
    (by intro _ e he; omega)
  exact ⟨r, d, by rw [fas, hr]; rfl, hi, hd, hc⟩

/-! ## C51 -/

/-- Every edge missing from the result was removed because some call of the CI test on that pair (in one of the two orders, with
a conditioning set avoiding the pair and no larger than the depth bound) reported independence, or because knowledge forbids
both directions. (`depth = none`: unlimited.) -/
theorem C51_deletions_justified (stable : Bool) (ind : CI n) (k : Know n) (depth : Option Nat) :
    ∃ r, fas stable ind k depth = some r ∧ ∀ x y, x ≠ y → ¬ IsEdge r.1 x y →
      (∃ S : List (Fin n), S.Nodup ∧ x ∉ S ∧ y ∉ S ∧ (∀ D, depth = some D → S.length ≤ D) ∧ (ind x y S = true ∨ ind y x S = true)) ∨
      (k.forb x y = true ∧ k.forb y x = true) := by
  obtain ⟨r, d, h, hi, hd, -⟩ := fas_spec stable ind k depth
  refine ⟨_, h, fun x y hxy hn => ?_⟩
  have hne : r.ss x y ≠ none := fun e => hn ((hi.ssIff x y hxy).1 e)
  obtain ⟨T, hT⟩ := Option.ne_none_iff_exists'.1 hne
  rcases (hi.ss x y T hT).good.2 with ⟨S, -, hS, hl⟩ | hb
  · exact Or.inl ⟨S, hS.1, hS.2.1, hS.2.2.1, fun D hD => by have := hd D hD; omega, hS.2.2.2⟩
  · right; simpa [Know.ban] using hb

/-- In the result no remaining edge `x – y` can be separated, according to the CI test, by any set of at most `depth` remaining
neighbours of `x`. -/
theorem C51_remaining_edges_tested (stable : Bool) (ind : CI n) (k : Know n) (depth : Option Nat)
    (hk : stable = true ∨ ∀ a b, ¬ (k.forb a b = true ∧ k.forb b a = true)) (hset : SetBased ind) :
    ∃ r, fas stable ind k depth = some r ∧ ∀ x y, IsEdge r.1 x y →
      ∀ S : List (Fin n), S.Nodup → (∀ D, depth = some D → S.length ≤ D) → (∀ z ∈ S, IsEdge r.1 x z ∧ z ≠ y) → ind x y S = false := by
  obtain ⟨r, d, h, hi, hd, hc⟩ := fas_spec stable ind k depth
  refine ⟨_, h, fun x y hxy S hnd hlen hS => ?_⟩
  have hk' : stable = true ∨ ∀ a b, k.ban a b = false := by
    rcases hk with h | h
    · exact Or.inl h
    · right; intro a b; have := h a b; simp only [Know.ban]; grind
  let T := ((r.G.neighbors x).filter (· ≠ y)).filter (· ∈ S)
  have hT : ∀ z, z ∈ T ↔ z ∈ S := by
    intro z
    simp only [T, List.mem_filter, mem_neighbors, decide_eq_true_eq]
    constructor
    · exact fun h => h.2
    · exact fun h => ⟨⟨(hS z h).1, (hS z h).2⟩, h⟩
  have hTn : T.Nodup := ((nodup_neighbors _ _).filter _).filter _
  have hne : x ≠ y := by rintro rfl; exact hxy (hi.und.diag x)
  have hTl : T.length = S.length := ((List.perm_ext_iff_of_nodup hTn hnd).2 hT).length_eq
  rw [hset x y S T hne hnd hTn (fun hz => (hS x hz).1 (hi.und.diag x)) (fun hz => (hS y hz).2 rfl) (fun z => (hT z).symm)]
  refine hc hk' T.length ?_ x y hxy T List.filter_sublist rfl
  cases depth with
  | none => rfl
  | some D => simp only [withinDepth, Option.elim, decide_eq_true_eq]; rw [hTl]; exact hlen D rfl

/-- Exactness with a depth bound: if the test never separates a truly adjacent pair and separates every other pair by a set of
true neighbours of one member no larger than the bound, `fas` returns exactly the true adjacencies. -/
theorem C51_exact_skeleton (stable : Bool) (ind : CI n) (k : Know n) (depth : Option Nat) (A : Fin n → Fin n → Prop)
    (hsymm : ∀ x y, A x y → A y x) (hirr : ∀ x, ¬ A x x)
    (hk : stable = true ∨ ∀ a b, ¬ (k.forb a b = true ∧ k.forb b a = true))
    (hban : ∀ a b, k.forb a b = true → k.forb b a = true → ¬ A a b)
    (hset : SetBased ind)
    (hadj : ∀ x y (S : List (Fin n)), S.Nodup → x ∉ S → y ∉ S → A x y → ind x y S = false)
    (hsep : ∀ x y, x ≠ y → ¬ A x y → ∃ S : List (Fin n), S.Nodup ∧ (∀ D, depth = some D → S.length ≤ D) ∧
      (((∀ z ∈ S, A x z) ∧ ind x y S = true) ∨ ((∀ z ∈ S, A y z) ∧ ind y x S = true))) :
    ∃ r, fas stable ind k depth = some r ∧ ∀ x y, (IsEdge r.1 x y ↔ A x y) ∧ (IsEdge r.1 x y → r.1.g x y = .tail ∧ r.1.g y x = .tail) := by
  obtain ⟨r, h, hd⟩ := C51_deletions_justified stable ind k depth
  obtain ⟨r', d', h', hi, -, -⟩ := fas_spec stable ind k depth
  obtain rfl : r = (r'.G, r'.ss) := by rw [h] at h'; exact Option.some.inj h'
  obtain ⟨r'', h'', ht⟩ := C51_remaining_edges_tested stable ind k depth hk hset
  obtain rfl : (r'.G, r'.ss) = r'' := by rw [h] at h''; exact Option.some.inj h''
  have hback : ∀ x y, A x y → IsEdge r'.G x y := by
    intro x y hxy
    by_contra hn
    have hne : x ≠ y := by rintro rfl; exact hirr x hxy
    rcases hd x y hne hn with ⟨S, h0, h1, h2, -, h3⟩ | ⟨h1, h2⟩
    · rw [hadj x y S h0 h1 h2 hxy, hadj y x S h0 h2 h1 (hsymm _ _ hxy)] at h3
      simp at h3
    · exact hban x y h1 h2 hxy
  refine ⟨_, h, fun x y => ⟨⟨fun he => ?_, hback x y⟩, fun he => ?_⟩⟩
  · by_contra hn
    have hne : x ≠ y := by rintro rfl; exact he (hi.und.diag x)
    have he' : IsEdge r'.G y x := by unfold IsEdge; rw [hi.und.symm]; exact he
    obtain ⟨S, hnd, hl, ⟨h1, h2⟩ | ⟨h1, h2⟩⟩ := hsep x y hne hn
    · have := ht x y he S hnd hl fun z hz => ⟨hback x z (h1 z hz), by rintro rfl; exact hn (h1 z hz)⟩
      rw [h2] at this; simp at this
    · have := ht y x he' S hnd hl fun z hz => ⟨hback y z (h1 z hz), by rintro rfl; exact hn (hsymm _ _ (h1 z hz))⟩
      rw [h2] at this; simp at this
  · have h1 : r'.G.g x y = .tail := (hi.und.mark x y).resolve_left he
    exact ⟨h1, by show r'.G.g y x = _; rw [← hi.und.symm]; exact h1⟩

/-- The separating-set table has an entry for exactly the removed pairs and the two orders of a pair have the same entry. -/
theorem C51_table_both_orders (stable : Bool) (ind : CI n) (k : Know n) (depth : Option Nat) :
    ∃ r, fas stable ind k depth = some r ∧ (∀ x y, r.2 x y = r.2 y x) ∧
      ∀ x y, x ≠ y → ((r.2 x y).isSome = true ↔ ¬ IsEdge r.1 x y) := by
  obtain ⟨r, d, h, hi, -, -⟩ := fas_spec stable ind k depth
  refine ⟨_, h, hi.ssSymm, fun x y hxy => ?_⟩
  have := hi.ssIff x y hxy
  dsimp only
  unfold IsEdge
  rw [← this]
  cases r.ss x y <;> simp

/-- Eager mode: the entry of a removed pair is a set for which the test reported independence (and no larger than the depth
bound), or the empty set of a pair forbidden by knowledge. -/
theorem C51_eager_entry_separates (ind : CI n) (k : Know n) (depth : Option Nat) :
    ∃ r, fas false ind k depth = some r ∧ ∀ x y T, r.2 x y = some T →
      (T.Nodup ∧ x ∉ T ∧ y ∉ T ∧ (∀ D, depth = some D → T.length ≤ D) ∧ (ind x y T = true ∨ ind y x T = true)) ∨
      (k.forb x y = true ∧ k.forb y x = true ∧ T = []) := by
  obtain ⟨r, d, h, hi, hd, -⟩ := fas_spec false ind k depth
  refine ⟨_, h, fun x y T hT => ?_⟩
  rcases (show SSExact ind k d x y T from hi.ss x y T hT) with ⟨hS, hl⟩ | ⟨hb, rfl⟩
  · exact Or.inl ⟨hS.1, hS.2.1, hS.2.2.1, fun D hD => by have := hd D hD; omega, hS.2.2.2⟩
  · right; simpa [Know.ban] using hb

/-- Stable mode: the entry of a removed pair is a union of sets for which the test reported independence, containing at least
one of them, or the pair is forbidden by knowledge. Missing: that the entry itself separates (`C51_stable_violated`). -/
theorem C51_stable_entry_partial (ind : CI n) (k : Know n) (depth : Option Nat) :
    ∃ r, fas true ind k depth = some r ∧ ∀ x y T, r.2 x y = some T →
      (∀ z ∈ T, ∃ S, z ∈ S ∧ x ∉ S ∧ y ∉ S ∧ S.Nodup ∧ (∀ D, depth = some D → S.length ≤ D) ∧ (ind x y S = true ∨ ind y x S = true)) ∧
      ((∃ S, S ⊆ T ∧ x ∉ S ∧ y ∉ S ∧ S.Nodup ∧ (∀ D, depth = some D → S.length ≤ D) ∧ (ind x y S = true ∨ ind y x S = true)) ∨
        (k.forb x y = true ∧ k.forb y x = true)) := by
  obtain ⟨r, d, h, hi, hd, -⟩ := fas_spec true ind k depth
  have hlen : ∀ {S : List (Fin n)}, S.length < d → ∀ D, depth = some D → S.length ≤ D := fun hS D hD => by
    have := hd D hD; omega
  refine ⟨_, h, fun x y T hT => ?_⟩
  have hg : SSGood ind k d x y T := hi.ss x y T hT
  refine ⟨fun z hz => ?_, hg.2.imp ?_ (by simp [Know.ban])⟩
  · obtain ⟨S, hzS, hS, hl⟩ := hg.1 z hz
    exact ⟨S, hzS, hS.2.1, hS.2.2.1, hS.1, hlen hl, hS.2.2.2⟩
  · rintro ⟨S, hsub, hS, hl⟩
    exact ⟨S, hsub, hS.2.1, hS.2.2.1, hS.1, hlen hl, hS.2.2.2⟩

/-- With unlimited depth `fas` finds the same adjacencies as PC's skeleton phase, in both modes. -/
theorem C51_same_graph_as_pc (stable : Bool) (ind : CI n) (k : Know n) :
    (fas stable ind k none).map (·.1) = (skeletonDiscovery stable ind k).map (·.1) := by
  have key : ∀ f d (st : FasSt n) (s : GG n × Sep n), st.G = s.1 →
      (fasLoop stable ind k none f d st).map (·.G) = (skLoop stable ind k f d s).map (·.1) := by
    intro f
    induction f with
    | zero => intros; rfl
    | succ f ih =>
      intro d st s h
      rw [fasLoop, skLoop]
      by_cases hd : d < s.1.maxDegree
      · rw [if_pos ⟨by rw [h]; exact hd, rfl⟩, if_pos hd]
        apply ih
        cases stable
        · simpa [h] using fasEagerDepth_G ind k d st s.2
        · simpa [h] using fasStableDepth_G ind k d st s.2
      · rw [if_neg (by rw [h]; exact fun hh => hd hh.1), if_neg hd]
        simpa using h
  rw [fas, skeletonDiscovery, Option.map_map]
  exact key _ _ _ _ rfl

/-- non-vacuity of C51: on the chain oracle `0 – 1 – 2` with depth bound 1 exactly `0 – 2` is removed and the table holds `{1}` for
both orders; with depth bound 0 nothing is removed. -/
example : SetBased chainCI → (∃ r, fas true chainCI Know.none (some 1) = some r ∧ r.1.g 0 2 = .null ∧ r.1.g 0 1 = .tail ∧
    r.2 0 2 = some [1, 1] ∧ r.2 2 0 = some [1, 1]) ∧
    (∃ r, fas false chainCI Know.none (some 1) = some r ∧ r.2 0 2 = some [1] ∧ r.1.g 2 0 = .null) ∧
    ∃ r, fas true chainCI Know.none (some 0) = some r ∧ r.1.g 0 2 = .tail := by
  intro _
  exact ⟨⟨_, rfl, by decide⟩, ⟨_, rfl, by decide⟩, ⟨_, rfl, by decide⟩⟩

/-- **C51 violated in stable mode**: the entry need not separate. The test separates `0` and `3` given `{1}` and given `{2}` but
not given `{1, 2}`; the recorded entry is `{1, 2}`. -/
theorem C51_stable_violated : let ind : CI 4 := fun x y S => decide ((x = 0 ∧ y = 3 ∨ x = 3 ∧ y = 0) ∧ (S = [1] ∨ S = [2]))
    ∃ r, fas true ind Know.none none = some r ∧ (r.2 0 3).map (fun T => decide (1 ∈ T ∧ 2 ∈ T)) = some true ∧ ind 0 3 [1, 2] = false ∧ ind 0 3 [2, 1] = false := by
  refine ⟨_, rfl, ?_, rfl, rfl⟩
  decide

end CL
