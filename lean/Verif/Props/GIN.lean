import Verif.Model.GIN
import Mathlib.Logic.Relation
import Mathlib.Data.List.Nodup
import Mathlib.Data.List.GetD
import Mathlib.Order.Basic
import Mathlib.Order.Nat

/-!
# C48: merging overlapping clusters
-/
namespace CL.GIN
variable {α : Type} [DecidableEq α]

/-! ## Specification -/

/-- Two variables are linked if some input cluster contains both; `Connected` is the least equivalence containing it, i.e.
its classes form the finest partition in which every input cluster lies inside one class. -/
def Linked (cl : List (List α)) (a b : α) : Prop := ∃ c ∈ cl, a ∈ c ∧ b ∈ c

/-- See `Linked`. -/
def Connected (cl : List (List α)) : α → α → Prop := Relation.EqvGen (Linked cl)

/-! ## Proof -/

theorem mem_getD {cl : List (List α)} {k : Nat} {x : α} (h : x ∈ cl.getD k []) : k < cl.length ∧ cl.getD k [] ∈ cl := by
  by_cases hk : k < cl.length
  · refine ⟨hk, ?_⟩
    rw [List.getD_eq_getElem _ _ hk]
    exact List.getElem_mem hk
  · rw [List.getD_eq_default _ _ (by omega)] at h
    cases h

theorem mem_owners {cl : List (List α)} {x : α} {k : Nat} : k ∈ owners cl x ↔ x ∈ cl.getD k [] := by
  unfold owners
  simp only [List.mem_flatMap, List.mem_range, List.mem_map, List.mem_filter, decide_eq_true_eq]
  constructor
  · rintro ⟨k', -, y, ⟨h1, rfl⟩, rfl⟩; exact h1
  · intro h; exact ⟨k, (mem_getD h).1, x, ⟨h, rfl⟩, rfl⟩

/-- Number of unvisited clusters. -/
def unvis (m : Nat) (vis : Nat → Bool) : Nat := (List.range m).countP fun i => !vis i

theorem unvis_mark {m j : Nat} {vis : Nat → Bool} (hj : j < m) (hv : vis j = false) :
    unvis m (fun k => if k = j then true else vis k) + 1 = unvis m vis := by
  unfold unvis
  have key : ∀ l : List Nat, l.Nodup → j ∈ l →
      (l.countP fun i => !(if i = j then true else vis i)) + 1 = l.countP fun i => !vis i := by
    intro l
    induction l with
    | nil => intro _ h; cases h
    | cons a l ih =>
      intro hn hm
      rw [List.nodup_cons] at hn
      rw [List.countP_cons, List.countP_cons]
      by_cases ha : a = j
      · subst ha
        have : (l.countP fun i => !(if i = a then true else vis i)) = l.countP fun i => !vis i := by
          apply List.countP_congr
          intro i hi
          have : i ≠ a := by rintro rfl; exact hn.1 hi
          simp [this]
        rw [this, hv]
        simp
      · have hm' : j ∈ l := by
          rcases List.mem_cons.1 hm with h | h
          · exact absurd h.symm ha
          · exact h
        have := ih hn.2 hm'
        simp only [ha, if_false]
        omega
  exact key _ List.nodup_range (List.mem_range.2 hj)

/-- Invariant of the inner search for component number `num`, seeded at cluster `seed`, relative to the state `s0` before. -/
structure Inv (cl : List (List α)) (num seed : Nat) (s0 s : Bfs α) : Prop where
  mono : ∀ j, s0.vis j = true → s.vis j = true
  range : ∀ j, s.vis j = true → j < cl.length
  queued : ∀ j ∈ s.q, s.vis j = true ∧ s0.vis j = false
  seeded : s.vis seed = true ∧ s0.vis seed = false
  conn : ∀ j, s.vis j = true → s0.vis j = false → ∀ a ∈ cl.getD j [], ∀ b ∈ cl.getD seed [], Connected cl a b
  dictNew : ∀ x, s.dict x = some num → ∃ j, s.vis j = true ∧ s0.vis j = false ∧ x ∈ cl.getD j []
  dictOld : ∀ x l, l ≠ num → (s.dict x = some l ↔ s0.dict x = some l)

/-- A cluster is finished: all its labels carry `num` and all clusters meeting it are visited. -/
def Done (cl : List (List α)) (num : Nat) (s : Bfs α) (j : Nat) : Prop :=
  ∀ x ∈ cl.getD j [], s.dict x = some num ∧ ∀ k ∈ owners cl x, s.vis k = true

/-- The old part is closed: visited clusters carry their labels and everything that meets them is visited. -/
structure Closed (cl : List (List α)) (num : Nat) (s : Bfs α) : Prop where
  range : ∀ j, s.vis j = true → j < cl.length
  closed : ∀ j, s.vis j = true → ∀ x ∈ cl.getD j [], ∀ k ∈ owners cl x, s.vis k = true
  same : ∀ j, s.vis j = true → ∃ l, l < num ∧ ∀ x ∈ cl.getD j [], s.dict x = some l
  only : ∀ x l, s.dict x = some l → l < num ∧ ∃ j, s.vis j = true ∧ x ∈ cl.getD j []
  conn : ∀ x y l, s.dict x = some l → s.dict y = some l → Connected cl x y
  used : (∀ c ∈ cl, c ≠ []) → ∀ l < num, ∃ x, s.dict x = some l

theorem Closed.disjoint {cl : List (List α)} {num : Nat} {s0 : Bfs α} (h : Closed cl num s0) {j : Nat} {x : α}
    (hj : s0.vis j = false) (hx : x ∈ cl.getD j []) : s0.dict x = none := by
  cases hd : s0.dict x with
  | none => rfl
  | some l =>
    obtain ⟨-, k, hk, hxk⟩ := h.only x l hd
    have := h.closed k hk x hxk j (mem_owners.2 hx)
    rw [hj] at this
    cases this

theorem push_inv {cl : List (List α)} {num seed : Nat} {s0 s : Bfs α} (h : Inv cl num seed s0 s) {x : α} {top j : Nat}
    (htop : s.vis top = true ∧ s0.vis top = false) (hx : x ∈ cl.getD top []) (hj : j ∈ owners cl x) :
    Inv cl num seed s0 (pushOwner s j) ∧ (pushOwner s j).vis j = true ∧ (pushOwner s j).dict = s.dict ∧
      (∀ k, s.vis k = true → (pushOwner s j).vis k = true) ∧ (∀ k ∈ s.q, k ∈ (pushOwner s j).q) ∧
      (∀ k, (pushOwner s j).vis k = true → s.vis k = true ∨ k ∈ (pushOwner s j).q) ∧
      2 * unvis cl.length (pushOwner s j).vis + (pushOwner s j).q.length ≤ 2 * unvis cl.length s.vis + s.q.length := by
  unfold pushOwner
  by_cases hv : s.vis j = true
  · rw [if_pos hv]
    exact ⟨h, hv, rfl, fun _ h => h, fun _ h => h, fun _ h => Or.inl h, le_rfl⟩
  · have hv' : s.vis j = false := by simpa using hv
    rw [if_neg hv]
    have hxj := mem_owners.1 hj
    have hjr := (mem_getD hxj).1
    have h0 : s0.vis j = false := by
      cases h0 : s0.vis j with
      | false => rfl
      | true => exact absurd (h.mono j h0) hv
    have hvis : ∀ k, s.vis k = true → (if k = j then true else s.vis k) = true := by
      intro k hk; split
      · rfl
      · exact hk
    refine ⟨⟨?_, ?_, ?_, ?_, ?_, ?_, ?_⟩, ?_, rfl, hvis, ?_, ?_, ?_⟩
    · exact fun k hk => hvis k (h.mono k hk)
    · intro k hk
      dsimp only at hk
      split at hk
      · rename_i e; rw [e]; exact hjr
      · exact h.range k hk
    · intro k hk
      rcases List.mem_append.1 hk with hk | hk
      · exact ⟨hvis k (h.queued k hk).1, (h.queued k hk).2⟩
      · rw [List.mem_singleton.1 hk]; exact ⟨by simp, h0⟩
    · exact ⟨hvis _ h.seeded.1, h.seeded.2⟩
    · intro k hk hk0 a ha b hb
      dsimp only at hk
      split at hk
      · rename_i e
        subst e
        have h1 := h.conn top htop.1 htop.2 x hx b hb
        refine .trans _ _ _ (.rel _ _ ⟨cl.getD k [], (mem_getD ha).2, ha, hxj⟩) h1
      · exact h.conn k hk hk0 a ha b hb
    · intro y hy
      obtain ⟨k, hk, hk'⟩ := h.dictNew y hy
      exact ⟨k, hvis k hk, hk'⟩
    · exact h.dictOld
    · simp
    · intro k hk; exact List.mem_append_left _ hk
    · intro k hk
      dsimp only at hk
      split at hk
      · rename_i e; right; rw [e]; simp
      · exact Or.inl hk
    · have := unvis_mark hjr hv'
      simp only [List.length_append, List.length_singleton]
      omega

theorem push_all {cl : List (List α)} {num seed : Nat} {s0 : Bfs α} {x : α} {top : Nat} (hx : x ∈ cl.getD top []) :
    ∀ (js : List Nat) (s : Bfs α), (∀ j ∈ js, j ∈ owners cl x) → Inv cl num seed s0 s →
      (s.vis top = true ∧ s0.vis top = false) →
      Inv cl num seed s0 (js.foldl pushOwner s) ∧ (∀ j ∈ js, (js.foldl pushOwner s).vis j = true) ∧
        (js.foldl pushOwner s).dict = s.dict ∧
        (∀ k, s.vis k = true → (js.foldl pushOwner s).vis k = true) ∧ (∀ k ∈ s.q, k ∈ (js.foldl pushOwner s).q) ∧
        (∀ k, (js.foldl pushOwner s).vis k = true → s.vis k = true ∨ k ∈ (js.foldl pushOwner s).q) ∧
        2 * unvis cl.length (js.foldl pushOwner s).vis + (js.foldl pushOwner s).q.length ≤
          2 * unvis cl.length s.vis + s.q.length := by
  intro js
  induction js with
  | nil => intro s _ h _; exact ⟨h, by simp, rfl, fun _ h => h, fun _ h => h, fun _ h => Or.inl h, le_rfl⟩
  | cons j js ih =>
    intro s hjs h htop
    obtain ⟨h1, h2, h3, h4, h5, h6, h7⟩ := push_inv h htop hx (hjs j (by simp))
    obtain ⟨g1, g2, g3, g4, g5, g6, g7⟩ := ih (pushOwner s j) (fun k hk => hjs k (by simp [hk])) h1
      ⟨h4 _ htop.1, htop.2⟩
    rw [List.foldl_cons]
    refine ⟨g1, ?_, g3.trans h3, fun k hk => g4 k (h4 k hk), fun k hk => g5 k (h5 k hk), ?_, g7.trans h7⟩
    · intro k hk
      rcases List.mem_cons.1 hk with rfl | hk
      · exact g4 _ h2
      · exact g2 k hk
    · intro k hk
      rcases g6 k hk with hk | hk
      · rcases h6 k hk with hk | hk
        · exact Or.inl hk
        · exact Or.inr (g5 k hk)
      · exact Or.inr hk

theorem label_inv {cl : List (List α)} {num seed : Nat} {s0 s : Bfs α} (hc : Closed cl num s0) (h : Inv cl num seed s0 s)
    {x : α} {top : Nat} (htop : s.vis top = true ∧ s0.vis top = false) (hx : x ∈ cl.getD top []) :
    Inv cl num seed s0 (label cl num s x) ∧ (label cl num s x).dict x = some num ∧
      (∀ k ∈ owners cl x, (label cl num s x).vis k = true) ∧
      (∀ y, s.dict y = some num → (label cl num s x).dict y = some num) ∧
      (∀ k, s.vis k = true → (label cl num s x).vis k = true) ∧ (∀ k ∈ s.q, k ∈ (label cl num s x).q) ∧
      (∀ k, (label cl num s x).vis k = true → s.vis k = true ∨ k ∈ (label cl num s x).q) ∧
      2 * unvis cl.length (label cl num s x).vis + (label cl num s x).q.length ≤
          2 * unvis cl.length s.vis + s.q.length := by
  unfold label
  have h' : Inv cl num seed s0 { s with dict := fun y => if y = x then some num else s.dict y } := by
    refine ⟨h.mono, h.range, h.queued, h.seeded, h.conn, ?_, ?_⟩
    · intro y hy
      dsimp only at hy
      split at hy
      · rename_i e; rw [e]; exact ⟨top, htop.1, htop.2, hx⟩
      · exact h.dictNew y hy
    · intro y l hl
      dsimp only
      split
      · rename_i e
        rw [e, hc.disjoint htop.2 hx]
        simp [Ne.symm hl]
      · exact h.dictOld y l hl
  obtain ⟨g1, g2, g3, g4, g5, g6, g7⟩ := push_all hx (owners cl x) _ (fun _ h => h) h' htop
  refine ⟨g1, by rw [g3]; simp, g2, ?_, g4, g5, g6, g7⟩
  intro y hy
  rw [g3]
  dsimp only
  split
  · rfl
  · exact hy

theorem cluster_inv {cl : List (List α)} {num seed : Nat} {s0 : Bfs α} (hc : Closed cl num s0) {top : Nat} :
    ∀ (xs : List α) (s : Bfs α), (∀ x ∈ xs, x ∈ cl.getD top []) → Inv cl num seed s0 s →
      (s.vis top = true ∧ s0.vis top = false) →
      Inv cl num seed s0 (xs.foldl (label cl num) s) ∧
        (∀ x ∈ xs, (xs.foldl (label cl num) s).dict x = some num ∧
          ∀ k ∈ owners cl x, (xs.foldl (label cl num) s).vis k = true) ∧
        (∀ y, s.dict y = some num → (xs.foldl (label cl num) s).dict y = some num) ∧
        (∀ k, s.vis k = true → (xs.foldl (label cl num) s).vis k = true) ∧
        (∀ k ∈ s.q, k ∈ (xs.foldl (label cl num) s).q) ∧
        (∀ k, (xs.foldl (label cl num) s).vis k = true → s.vis k = true ∨ k ∈ (xs.foldl (label cl num) s).q) ∧
        2 * unvis cl.length (xs.foldl (label cl num) s).vis + (xs.foldl (label cl num) s).q.length ≤
          2 * unvis cl.length s.vis + s.q.length := by
  intro xs
  induction xs with
  | nil => intro s _ h _; exact ⟨h, by simp, fun _ h => h, fun _ h => h, fun _ h => h, fun _ h => Or.inl h, le_rfl⟩
  | cons x xs ih =>
    intro s hxs h htop
    obtain ⟨h1, h2, h3, h4, h5, h6, h7, h8⟩ := label_inv hc h htop (hxs x (by simp))
    obtain ⟨g1, g2, g3, g4, g5, g6, g7⟩ := ih (label cl num s x) (fun k hk => hxs k (by simp [hk])) h1
      ⟨h5 _ htop.1, htop.2⟩
    rw [List.foldl_cons]
    refine ⟨g1, ?_, fun y hy => g3 y (h4 y hy), fun k hk => g4 k (h5 k hk), fun k hk => g5 k (h6 k hk), ?_, g7.trans h8⟩
    · intro y hy
      rcases List.mem_cons.1 hy with rfl | hy
      · exact ⟨g3 _ h2, fun k hk => g4 k (h3 k hk)⟩
      · exact g2 y hy
    · intro k hk
      rcases g6 k hk with hk | hk
      · rcases h7 k hk with hk | hk
        · exact Or.inl hk
        · exact Or.inr (g5 k hk)
      · exact Or.inr hk

theorem bfs_spec {cl : List (List α)} {num seed : Nat} {s0 : Bfs α} (hc : Closed cl num s0) (fuel : Nat) :
    ∀ s : Bfs α, Inv cl num seed s0 s → (∀ j, s.vis j = true → s0.vis j = false → j ∈ s.q ∨ Done cl num s j) →
      2 * unvis cl.length s.vis + s.q.length ≤ fuel →
      ∃ s', bfs cl num fuel s = some s' ∧ Inv cl num seed s0 s' ∧
        ∀ j, s'.vis j = true → s0.vis j = false → Done cl num s' j := by
  induction fuel with
  | zero =>
    intro s h hd hf
    have : s.q = [] := List.length_eq_zero_iff.1 (by omega)
    refine ⟨s, by simp [bfs, this], h, fun j h1 h2 => ?_⟩
    rcases hd j h1 h2 with h3 | h3
    · rw [this] at h3; cases h3
    · exact h3
  | succ fuel ih =>
    intro s h hd hf
    cases hq : s.q with
    | nil =>
      refine ⟨s, by simp [bfs, hq], h, fun j h1 h2 => ?_⟩
      rcases hd j h1 h2 with h3 | h3
      · rw [hq] at h3; cases h3
      · exact h3
    | cons top q =>
      simp only [bfs, hq]
      have htop := h.queued top (by rw [hq]; simp)
      have h' : Inv cl num seed s0 { s with q := q } :=
        ⟨h.mono, h.range, fun j hj => h.queued j (by rw [hq]; simp [hj]), h.seeded, h.conn, h.dictNew, h.dictOld⟩
      obtain ⟨g1, g2, g3, g4, g5, g6, g7⟩ := cluster_inv hc (cl.getD top []) { s with q := q } (fun _ h => h) h' htop
      refine ih _ g1 ?_ ?_
      · intro j hj hj0
        rcases g6 j hj with h1 | h1
        · rcases hd j h1 hj0 with h2 | h2
          · rw [hq] at h2
            rcases List.mem_cons.1 h2 with rfl | h2
            · right; exact fun x hx => g2 x hx
            · left; exact g5 j h2
          · right
            intro x hx
            obtain ⟨h3, h4⟩ := h2 x hx
            exact ⟨g3 x h3, fun k hk => g4 k (h4 k hk)⟩
        · exact Or.inl h1
      · dsimp only at g7 ⊢
        rw [hq, List.length_cons] at hf
        omega

theorem closed_init (cl : List (List α)) : Closed cl 0 (⟨fun _ => false, fun _ => none, []⟩ : Bfs α) where
  range j h := by cases h
  closed j h := by cases h
  same j h := by cases h
  only x l h := by cases h
  conn x y l h := by cases h
  used _ l h := absurd h (Nat.not_lt_zero l)

theorem unvis_le (m : Nat) (vis : Nat → Bool) : unvis m vis ≤ m := by
  unfold unvis
  have := List.countP_le_length (p := fun i => !vis i) (l := List.range m)
  simpa using this

theorem outer_spec {cl : List (List α)} (bfuel : Nat) (hb : 2 * cl.length + 1 ≤ bfuel) (fuel : Nat) :
    ∀ (s : Bfs α) (num : Nat), Closed cl num s → (∃ i < cl.length, s.vis i = false) → unvis cl.length s.vis ≤ fuel →
      ∃ s' num', outer cl bfuel fuel s num = some (s', num') ∧ Closed cl num' s' ∧ ∀ i < cl.length, s'.vis i = true := by
  induction fuel with
  | zero =>
    rintro s num hc ⟨i, hi, hv⟩ hu
    exfalso
    have : 0 < unvis cl.length s.vis := List.countP_pos_iff.2 ⟨i, List.mem_range.2 hi, by simp [hv]⟩
    omega
  | succ fuel ih =>
    rintro s num hc ⟨i0, hi0, hv0⟩ hu
    unfold outer startQueue
    cases hf : (List.range cl.length).find? fun i => !s.vis i with
    | none =>
      have := List.find?_eq_none.1 hf i0 (List.mem_range.2 hi0)
      simp [hv0] at this
    | some i =>
      have hi : i < cl.length := List.mem_range.1 (List.mem_of_find?_eq_some hf)
      have hv : s.vis i = false := by simpa using List.find?_some hf
      have hmark := unvis_mark hi hv
      have hinv : Inv cl num i s ⟨fun k => if k = i then true else s.vis k, s.dict, [i]⟩ := by
        refine ⟨?_, ?_, ?_, ⟨by simp, hv⟩, ?_, ?_, fun _ _ _ => Iff.rfl⟩
        · intro k hk; dsimp only; split
          · rfl
          · exact hk
        · intro k hk
          dsimp only at hk
          split at hk
          · rename_i e; rw [e]; exact hi
          · exact hc.range k hk
        · intro k hk
          rw [List.mem_singleton.1 hk]; exact ⟨by simp, hv⟩
        · intro k hk hk0 a ha b hb
          dsimp only at hk
          split at hk
          · rename_i e
            subst e
            exact .rel _ _ ⟨_, (mem_getD ha).2, ha, hb⟩
          · rw [hk] at hk0; cases hk0
        · intro x hx
          exact absurd (hc.only x num hx).1 (lt_irrefl _)
      obtain ⟨s2, h2, hi2, hd2⟩ := bfs_spec hc bfuel _ hinv (by
        intro j hj hj0
        dsimp only at hj
        split at hj
        · rename_i e; left; rw [e]; simp
        · rw [hj] at hj0; cases hj0) (by
          have := unvis_le cl.length s.vis
          simp only [List.length_singleton]
          omega)
      simp only [h2]
      have hc2 : Closed cl (num + 1) s2 := by
        refine ⟨hi2.range, ?_, ?_, ?_, ?_, ?_⟩
        · intro j hj x hx k hk
          cases h0 : s.vis j with
          | true => exact hi2.mono k (hc.closed j h0 x hx k hk)
          | false => exact (hd2 j hj h0 x hx).2 k hk
        · intro j hj
          cases h0 : s.vis j with
          | true =>
            obtain ⟨l, hl, h1⟩ := hc.same j h0
            exact ⟨l, by omega, fun x hx => (hi2.dictOld x l (by omega)).2 (h1 x hx)⟩
          | false => exact ⟨num, by omega, fun x hx => (hd2 j hj h0 x hx).1⟩
        · intro x l hx
          by_cases hl : l = num
          · subst hl
            obtain ⟨j, h3, -, h4⟩ := hi2.dictNew x hx
            exact ⟨by omega, j, h3, h4⟩
          · obtain ⟨h3, j, h4, h5⟩ := hc.only x l ((hi2.dictOld x l hl).1 hx)
            exact ⟨by omega, j, hi2.mono j h4, h5⟩
        · intro x y l hx hy
          by_cases hl : l = num
          · subst hl
            obtain ⟨j, h3, h4, h5⟩ := hi2.dictNew x hx
            obtain ⟨k, h6, h7, h8⟩ := hi2.dictNew y hy
            -- both are connected to any label of the seed; if the seed is empty nothing else was visited
            by_cases hseed : cl.getD i [] = []
            · exfalso
              have hlen : s2.dict x ≠ some l := by
                -- with an empty seed the search stops at once
                have hb1 : bfuel = (bfuel - 1) + 1 := by omega
                rw [hb1] at h2
                simp only [bfs, hseed, List.foldl_nil] at h2
                have : s2 = ⟨fun k => if k = i then true else s.vis k, s.dict, []⟩ := by
                  cases hbb : bfuel - 1 with
                  | zero => rw [hbb] at h2; simpa [bfs] using h2.symm
                  | succ b => rw [hbb] at h2; simpa [bfs] using h2.symm
                rw [this]
                intro hx'
                exact absurd (hc.only x l hx').1 (lt_irrefl _)
              exact hlen hx
            · obtain ⟨b, hb'⟩ := List.exists_mem_of_ne_nil _ hseed
              exact .trans _ _ _ (hi2.conn j h3 h4 x h5 b hb') (.symm _ _ (hi2.conn k h6 h7 y h8 b hb'))
          · exact hc.conn x y l ((hi2.dictOld x l hl).1 hx) ((hi2.dictOld y l hl).1 hy)
        · intro hne l hl
          by_cases hln : l = num
          · subst hln
            have hci : cl.getD i [] ≠ [] := by
              rw [List.getD_eq_getElem _ _ hi]
              exact hne _ (List.getElem_mem hi)
            obtain ⟨b, hb'⟩ := List.exists_mem_of_ne_nil _ hci
            exact ⟨b, (hd2 i hi2.seeded.1 hv b hb').1⟩
          · obtain ⟨x, hx⟩ := hc.used hne l (by omega)
            exact ⟨x, (hi2.dictOld x l hln).2 hx⟩
      by_cases hany : (List.range cl.length).any fun i => !s2.vis i
      · rw [if_pos hany]
        obtain ⟨k, hk, hk'⟩ := List.any_eq_true.1 hany
        refine ih s2 (num + 1) hc2 ⟨k, List.mem_range.1 hk, by simpa using hk'⟩ ?_
        -- at least the seed became visited
        have : unvis cl.length s2.vis ≤ unvis cl.length (fun k => if k = i then true else s.vis k) := by
          unfold unvis
          refine List.countP_mono_left fun k _ hk => ?_
          by_contra hne
          have h1 : s2.vis k = true := by
            by_cases hki : k = i
            · rw [hki]; exact hi2.seeded.1
            · have : s.vis k = true := by simpa [hki] using hne
              exact hi2.mono k this
          simp [h1] at hk
        omega
      · rw [if_neg hany]
        refine ⟨s2, num + 1, rfl, hc2, fun k hk => ?_⟩
        simp only [List.any_eq_true, not_exists, not_and, Bool.not_eq_true, Bool.not_eq_false'] at hany
        exact hany k (List.mem_range.2 hk)

/-- **C48**: `merge_overlaping_cluster` terminates; its output lists every variable of the input exactly once (so the
clusters are disjoint and cover the same variables), and two variables share an output cluster exactly when they are
connected through overlapping input clusters — the finest partition containing every input cluster in one block. If no
input cluster is empty, no output cluster is. -/
theorem C48_merge_is_finest_partition (cl : List (List α)) :
    ∃ out, (∀ fuel, 2 * cl.length + 1 ≤ fuel → mergeOverlapping cl fuel = some out) ∧ out.flatten.Nodup ∧
      (∀ x, x ∈ out.flatten ↔ ∃ c ∈ cl, x ∈ c) ∧
      (∀ x y, (∃ c ∈ cl, x ∈ c) → ((∃ c ∈ out, x ∈ c ∧ y ∈ c) ↔ Connected cl x y)) ∧
      ((∀ c ∈ cl, c ≠ []) → ∀ c ∈ out, c ≠ []) := by
  have hlab : ∀ x, x ∈ allElements cl ↔ ∃ c ∈ cl, x ∈ c := by
    intro x; unfold allElements; rw [List.mem_dedup, List.mem_flatten]
  by_cases h0 : (allElements cl).length = 0
  · have hnil := List.length_eq_zero_iff.1 h0
    refine ⟨[], fun fuel _ => by simp [mergeOverlapping, h0], by simp, fun x => ?_, fun x y hx => ?_, by simp⟩
    · rw [← hlab, hnil]; simp
    · rw [← hlab, hnil] at hx; cases hx
  · -- there is an unvisited cluster
    have hne : ∃ i < cl.length, (fun _ : Nat => false) i = false := by
      obtain ⟨x, hx⟩ := List.exists_mem_of_length_pos (Nat.pos_of_ne_zero h0)
      obtain ⟨c, hc, -⟩ := (hlab x).1 hx
      exact ⟨0, List.length_pos_of_mem hc, rfl⟩
    -- the result does not depend on the fuel: take the one for the least sufficient fuel and compare
    have run : ∀ fuel, 2 * cl.length + 1 ≤ fuel → ∃ s' num', outer cl fuel fuel ⟨fun _ => false, fun _ => none, []⟩ 0 =
        some (s', num') ∧ Closed cl num' s' ∧ ∀ i < cl.length, s'.vis i = true := by
      intro fuel hf
      refine outer_spec fuel hf fuel _ 0 (closed_init cl) hne ?_
      have := unvis_le cl.length fun _ => false
      dsimp only
      omega
    have bmono : ∀ num f (s r : Bfs α), bfs cl num f s = some r → bfs cl num (f + 1) s = some r := by
      intro num f
      induction f with
      | zero =>
        intro s r h
        simp only [bfs] at h
        split at h
        · rename_i hq; simp [bfs, hq]; simpa using h
        · cases h
      | succ f ih =>
        intro s r h
        cases hq : s.q with
        | nil => simp only [bfs, hq] at h ⊢; exact h
        | cons t q =>
          rw [bfs] at h ⊢
          rw [hq] at h
          rw [hq]
          exact ih _ _ h
    have bmono' : ∀ num f k (s r : Bfs α), bfs cl num f s = some r → bfs cl num (f + k) s = some r := by
      intro num f k s r h
      induction k with
      | zero => exact h
      | succ k ih => exact bmono _ _ _ _ ih
    have omono : ∀ b k g f (s : Bfs α) num r, outer cl b f s num = some r → outer cl (b + k) (f + g) s num = some r := by
      intro b k g f
      induction f with
      | zero => intro s num r h; cases h
      | succ f ih =>
        intro s num r h
        rw [Nat.add_right_comm]
        rw [outer] at h ⊢
        cases hb : bfs cl num b (startQueue cl s) with
        | none => rw [hb] at h; cases h
        | some s2 =>
          rw [hb] at h
          rw [bmono' _ _ k _ _ hb]
          dsimp only at h ⊢
          split at h
          · rename_i hc; rw [if_pos hc]; exact ih _ _ _ h
          · rename_i hc; rw [if_neg hc]; exact h
    obtain ⟨s', num', hr, hcl, hall⟩ := run (2 * cl.length + 1) le_rfl
    have hsame : ∀ fuel, 2 * cl.length + 1 ≤ fuel →
        outer cl fuel fuel ⟨fun _ => false, fun _ => none, []⟩ 0 = some (s', num') := by
      intro fuel hf
      obtain ⟨k, rfl⟩ := Nat.exists_eq_add_of_le hf
      exact omono _ k k _ _ _ _ hr
    -- every label has a number
    have hdict : ∀ x ∈ allElements cl, ∃ l, l < num' ∧ s'.dict x = some l := by
      intro x hx
      obtain ⟨c, hc, hxc⟩ := (hlab x).1 hx
      obtain ⟨j, hj, rfl⟩ := List.getElem_of_mem hc
      obtain ⟨l, hl, h1⟩ := hcl.same j (hall j hj)
      exact ⟨l, hl, h1 x (by rw [List.getD_eq_getElem _ _ hj]; exact hxc)⟩
    refine ⟨_, fun fuel hf => by simp only [mergeOverlapping, h0, if_false, hsame fuel hf, Option.map_some]; rfl,
      ?_, ?_, ?_, ?_⟩
    · rw [List.nodup_flatten]
      refine ⟨?_, ?_⟩
      · intro l hl
        obtain ⟨k, -, rfl⟩ := List.mem_map.1 hl
        exact (List.nodup_dedup _).filter _
      · rw [List.pairwise_map]
        refine List.nodup_range.imp fun {a b} hab => ?_
        intro x hx hy
        rw [List.mem_filter] at hx hy
        simp only [decide_eq_true_eq] at hx hy
        rw [hx.2] at hy
        exact hab (Option.some_inj.1 hy.2)
    · intro x
      rw [← hlab, List.mem_flatten]
      constructor
      · rintro ⟨l, hl, hx⟩
        obtain ⟨k, -, rfl⟩ := List.mem_map.1 hl
        exact (List.mem_filter.1 hx).1
      · intro hx
        obtain ⟨l, hl, h1⟩ := hdict x hx
        exact ⟨_, List.mem_map.2 ⟨l, List.mem_range.2 hl, rfl⟩, List.mem_filter.2 ⟨hx, by simpa using h1⟩⟩
    · intro x y hx
      constructor
      · rintro ⟨c, hc, hxc, hyc⟩
        obtain ⟨k, -, rfl⟩ := List.mem_map.1 hc
        rw [List.mem_filter] at hxc hyc
        exact hcl.conn x y k (by simpa using hxc.2) (by simpa using hyc.2)
      · intro hxy
        -- connected labels carry the same number
        have key : ∀ a b, Relation.EqvGen (Linked cl) a b → (s'.dict a = s'.dict b) ∧
            ((∃ c ∈ cl, a ∈ c) ↔ ∃ c ∈ cl, b ∈ c) := by
          intro a b hab
          induction hab with
          | rel a b hab =>
            obtain ⟨c, hc, ha, hb⟩ := hab
            refine ⟨?_, ⟨fun _ => ⟨c, hc, hb⟩, fun _ => ⟨c, hc, ha⟩⟩⟩
            obtain ⟨j, hj, rfl⟩ := List.getElem_of_mem hc
            obtain ⟨l, -, h1⟩ := hcl.same j (hall j hj)
            rw [List.getD_eq_getElem _ _ hj] at h1
            rw [h1 a ha, h1 b hb]
          | refl a => exact ⟨rfl, Iff.rfl⟩
          | symm a b _ ih => exact ⟨ih.1.symm, ih.2.symm⟩
          | trans a b c _ _ ih1 ih2 => exact ⟨ih1.1.trans ih2.1, ih1.2.trans ih2.2⟩
        obtain ⟨h1, h2⟩ := key x y hxy
        obtain ⟨l, hl, h3⟩ := hdict x ((hlab x).2 hx)
        refine ⟨_, List.mem_map.2 ⟨l, List.mem_range.2 hl, rfl⟩, ?_, ?_⟩
        · exact List.mem_filter.2 ⟨(hlab x).2 hx, by simpa using h3⟩
        · exact List.mem_filter.2 ⟨(hlab y).2 (h2.1 hx), by simpa [← h1] using h3⟩
    · intro hne c hc
      obtain ⟨l, hl, rfl⟩ := List.mem_map.1 hc
      obtain ⟨x, hx⟩ := hcl.used hne l (List.mem_range.1 hl)
      obtain ⟨-, j, -, hj⟩ := hcl.only x l hx
      refine List.ne_nil_of_mem (a := x) (List.mem_filter.2 ⟨(hlab x).2 ⟨_, (mem_getD hj).2, hj⟩, by simpa using hx⟩)

/-- Concrete case: `{1,2}`, `{3,4}`, `{2,5}`, `{4}` merge into `{1,2,5}` and `{3,4}`. -/
example : mergeOverlapping [[1, 2], [3, 4], [2, 5], [4]] 9 = some [[1, 2, 5], [3, 4]] := by decide

end CL.GIN
