import Verif.Proofs.AStar

/-!
# The order graph of the dynamic programming search
-/
namespace CL
namespace Exact
open Spec
variable {d : Nat} {K : Type} [AddCommGroup K] [LinearOrder K] [IsOrderedAddMonoid K]

structure LInv (pgs : Fin d → PG d K) (ext : Bool) (og0 : OG d K) (m : Nat) (done : Finset (Fin d) → Fin d → Prop)
    (st : OG d K × (Finset (Fin d) → Option (Finset (Fin d)))) : Prop where
  old : ∀ a b, b.card ≠ m → st.1 a b = og0 a b
  edge : ∀ a b e, b.card = m → st.1 a b = some e → ∃ i, i ∉ a ∧ b = insert i a ∧ e = query (pgs i) a
  oc : ∀ a c, st.2 a = some c → ext = true ∧ ∃ i, i ∉ a ∧ c = insert i a ∧ c.card = m ∧ headIn (pgs i) a = true ∧
    st.1 a c = some (query (pgs i) a)
  all : ∀ a i, done a i → st.2 a = none → st.1 a (insert i a) = some (query (pgs i) a)

theorem LInv.step {pgs : Fin d → PG d K} {ext : Bool} {og0 : OG d K} {m : Nat} {done : Finset (Fin d) → Fin d → Prop}
    {st : OG d K × (Finset (Fin d) → Option (Finset (Fin d)))} (h : LInv pgs ext og0 m done st) {S : Finset (Fin d)}
    (hS : S.card = m) {v : Fin d} (hv : v ∈ S) (hdone : ∀ a i, done a i → i ∉ a) :
    LInv pgs ext og0 m (fun a i => done a i ∨ (a = S.erase v ∧ i = v)) (dpEdge pgs ext S st v) := by
  have hins : insert v (S.erase v) = S := Finset.insert_erase hv
  have hvn : v ∉ S.erase v := Finset.notMem_erase v S
  unfold dpEdge
  dsimp only
  split
  · rename_i hc
    simp only [Bool.and_eq_true, Option.isSome_iff_exists] at hc
    refine ⟨h.old, h.edge, h.oc, fun a i hai hn => ?_⟩
    rcases hai with hai | ⟨rfl, rfl⟩
    · exact h.all a i hai hn
    · obtain ⟨c, hc⟩ := hc.2; rw [hn] at hc; simp at hc
  · rename_i hc
    refine ⟨fun a b hb => ?_, fun a b e hb he => ?_, fun a c hac => ?_, fun a i hai hn => ?_⟩
    · dsimp only
      rw [if_neg]
      · exact h.old a b hb
      · rintro ⟨-, rfl⟩; exact hb hS
    · dsimp only at he
      split at he
      · rename_i hab
        obtain ⟨rfl, rfl⟩ := hab
        simp only [Option.some.injEq] at he
        exact ⟨v, hvn, hins.symm, he.symm⟩
      · exact h.edge a b e hb he
    · dsimp only at hac ⊢
      have hold : st.2 a = some c → ext = true ∧ ∃ i, i ∉ a ∧ c = insert i a ∧ c.card = m ∧ headIn (pgs i) a = true ∧
          (if a = S.erase v ∧ c = S then some (query (pgs v) (S.erase v)) else st.1 a c) = some (query (pgs i) a) := by
        intro hac
        obtain ⟨e1, i, e2, e3, e4, e5, e6⟩ := h.oc a c hac
        refine ⟨e1, i, e2, e3, e4, e5, ?_⟩
        rw [if_neg]
        · exact e6
        · rintro ⟨rfl, -⟩
          apply hc
          simp [e1, hac]
      split at hac
      · rename_i hx
        simp only [Bool.and_eq_true] at hx
        dsimp only at hac
        split at hac
        · rename_i ha
          simp only [Option.some.injEq] at hac
          subst ha; subst hac
          exact ⟨hx.1, v, hvn, hins.symm, hS, hx.2, by rw [if_pos ⟨rfl, rfl⟩]⟩
        · exact hold hac
      · exact hold hac
    · dsimp only at hn ⊢
      rcases hai with hai | ⟨rfl, rfl⟩
      · split
        · rename_i hx
          obtain ⟨rfl, hx⟩ := hx
          have hi := hdone _ _ hai
          have : i = v := by
            have : i ∈ insert v (S.erase v) := by rw [hins, ← hx]; exact Finset.mem_insert_self _ _
            rcases Finset.mem_insert.1 this with h | h
            · exact h
            · exact absurd h hi
          rw [this]
        · refine h.all a i hai ?_
          split at hn
          · dsimp only at hn
            split at hn
            · simp at hn
            · exact hn
          · exact hn
      · rw [if_pos ⟨rfl, hins⟩]

/-- the order graph up to layer `m` -/
structure OGInv (pgs : Fin d → PG d K) (og : OG d K) (m : Nat) : Prop where
  edge : ∀ a b e, og a b = some e → b.card < m ∧ ∃ i, i ∉ a ∧ b = insert i a ∧ e = query (pgs i) a
  out : ∀ a : Finset (Fin d), a.card + 1 < m →
    (∀ i, i ∉ a → og a (insert i a) = some (query (pgs i) a)) ∨
    (∃ i, i ∉ a ∧ headIn (pgs i) a = true ∧ og a (insert i a) = some (query (pgs i) a))

theorem OGInv.layer {pgs : Fin d → PG d K} {ext : Bool} {og : OG d K} {m : Nat} (h : OGInv pgs og m) :
    OGInv pgs (dpLayer pgs ext og m) (m + 1) := by
  have inner : ∀ (S : Finset (Fin d)), S.card = m → ∀ (l : List (Fin d)), (∀ v ∈ l, v ∈ S) →
      ∀ (done : Finset (Fin d) → Fin d → Prop) (st : OG d K × (Finset (Fin d) → Option (Finset (Fin d)))),
      (∀ a i, done a i → i ∉ a) → LInv pgs ext og m done st →
      LInv pgs ext og m (fun a i => done a i ∨ ∃ v ∈ l, a = S.erase v ∧ i = v) (l.foldl (dpEdge pgs ext S) st) := by
    intro S hS l
    induction l with
    | nil => intro _ done st _ hst; exact ⟨hst.old, hst.edge, hst.oc, fun a i hai => hst.all a i (by simpa using hai)⟩
    | cons v l ih =>
      intro hl done st hd hst
      have h1 := hst.step hS (hl v (by simp)) hd
      have h2 := ih (fun w hw => hl w (by simp [hw])) _ _ (by
        rintro a i (hai | ⟨rfl, rfl⟩)
        · exact hd a i hai
        · exact Finset.notMem_erase _ _) h1
      refine ⟨h2.old, h2.edge, h2.oc, fun a i hai => h2.all a i ?_⟩
      rcases hai with hai | ⟨w, hw, hai⟩
      · exact Or.inl (Or.inl hai)
      · rcases List.mem_cons.1 hw with rfl | hw
        · exact Or.inl (Or.inr hai)
        · exact Or.inr ⟨w, hw, hai⟩
  have outer : ∀ (L : List (List (Fin d))), (∀ l ∈ L, l.Nodup ∧ l.length = m) →
      ∀ (done : Finset (Fin d) → Fin d → Prop) (st : OG d K × (Finset (Fin d) → Option (Finset (Fin d)))),
      (∀ a i, done a i → i ∉ a) → LInv pgs ext og m done st →
      LInv pgs ext og m (fun a i => done a i ∨ ∃ l ∈ L, ∃ v ∈ l, a = l.toFinset.erase v ∧ i = v)
        (L.foldl (fun st l => l.foldl (dpEdge pgs ext l.toFinset) st) st) := by
    intro L
    induction L with
    | nil => intro _ done st _ hst; exact ⟨hst.old, hst.edge, hst.oc, fun a i hai => hst.all a i (by simpa using hai)⟩
    | cons l L ih =>
      intro hL done st hd hst
      obtain ⟨hl1, hl2⟩ := hL l (by simp)
      have h1 := inner l.toFinset (by rw [List.toFinset_card_of_nodup hl1]; exact hl2) l
        (fun v hv => List.mem_toFinset.2 hv) done st hd hst
      have h2 := ih (fun w hw => hL w (by simp [hw])) _ _ (by
        rintro a i (hai | ⟨v, -, rfl, rfl⟩)
        · exact hd a i hai
        · exact Finset.notMem_erase _ _) h1
      refine ⟨h2.old, h2.edge, h2.oc, fun a i hai => h2.all a i ?_⟩
      rcases hai with hai | ⟨w, hw, hai⟩
      · exact Or.inl (Or.inl hai)
      · rcases List.mem_cons.1 hw with rfl | hw
        · exact Or.inl (Or.inr hai)
        · exact Or.inr ⟨w, hw, hai⟩
  have hfin := outer (combos (List.finRange d) m) (fun l hl => by
      obtain ⟨h1, h2⟩ := (combos_mem _ _ _).1 hl
      exact ⟨h1.nodup (List.nodup_finRange d), h2⟩) (fun _ _ => False) (og, fun _ => none) (by simp)
    ⟨fun _ _ _ => rfl, fun a b e hb he => by have := (h.edge a b e he).1; omega, by simp, by simp⟩
  set r := (combos (List.finRange d) m).foldl (fun st l => l.foldl (dpEdge pgs ext l.toFinset) st) (og, fun _ => none)
    with hr
  have hlay : ∀ a b, dpLayer pgs ext og m a b =
      if (r.2 a).isSome && decide (r.2 a ≠ some b) then none else r.1 a b := fun a b => rfl
  refine ⟨fun a b e he => ?_, fun a ha => ?_⟩
  · rw [hlay] at he
    split at he
    · simp at he
    · by_cases hb : b.card = m
      · exact ⟨by omega, hfin.edge a b e hb he⟩
      · rw [hfin.old a b hb] at he
        obtain ⟨h1, h2⟩ := h.edge a b e he
        exact ⟨by omega, h2⟩
  · by_cases ham : a.card + 1 = m
    · cases hoc : r.2 a with
      | none =>
        left
        intro i hi
        rw [hlay, hoc]
        simp only [Option.isSome_none, Bool.false_and, Bool.false_eq_true, if_false]
        refine hfin.all a i (Or.inr ?_) hoc
        have hf : ((List.finRange d).filter (· ∈ insert i a)).toFinset = insert i a := by
          ext v; simp
        refine ⟨(List.finRange d).filter (· ∈ insert i a), (combos_mem _ _ _).2 ⟨List.filter_sublist, ?_⟩, i, ?_, ?_, rfl⟩
        · rw [← List.toFinset_card_of_nodup ((List.nodup_finRange d).filter _), hf, Finset.card_insert_of_notMem hi]
          exact ham
        · simp
        · rw [hf, Finset.erase_insert hi]
      | some c =>
        right
        obtain ⟨-, i, e1, e2, e3, e4, e5⟩ := hfin.oc a c hoc
        refine ⟨i, e1, e4, ?_⟩
        rw [hlay, hoc, ← e2]
        simpa using e5
    · have hlt : a.card + 1 < m := by omega
      have hoc : r.2 a = none := by
        by_contra hh
        obtain ⟨c, hc⟩ := Option.ne_none_iff_exists'.1 hh
        obtain ⟨-, i, e1, e2, e3, -⟩ := hfin.oc a c hc
        rw [e2, Finset.card_insert_of_notMem e1] at e3
        exact ham e3
      have hsame : ∀ i, i ∉ a → dpLayer pgs ext og m a (insert i a) = og a (insert i a) := by
        intro i hi
        rw [hlay, hoc]
        simp only [Option.isSome_none, Bool.false_and, Bool.false_eq_true, if_false]
        refine hfin.old a _ ?_
        rw [Finset.card_insert_of_notMem hi]; exact ham
      rcases h.out a hlt with h1 | ⟨i, h1, h2, h3⟩
      · left; intro i hi; rw [hsame i hi]; exact h1 i hi
      · right; exact ⟨i, h1, h2, by rw [hsame i h1]; exact h3⟩

theorem orderGraph_inv (pgs : Fin d → PG d K) (ext : Bool) : OGInv pgs (orderGraph pgs ext) (d + 1) := by
  have key : ∀ m, OGInv pgs ((List.range m).foldl (dpLayer pgs ext) (fun _ _ => none)) m := by
    intro m
    induction m with
    | zero => exact ⟨by simp, by simp⟩
    | succ m ih => rw [List.range_succ, List.foldl_append]; exact ih.layer
  exact key (d + 1)

/-- any ordering can be followed at no greater cost inside the (pruned) order graph -/
theorem exists_path {pgs : Fin d → PG d K} (hs : Sorted pgs) {og : OG d K} (h : OGInv pgs og (d + 1)) (m : Nat)
    (U : Finset (Fin d)) (l : List (Fin d)) (hl : Completion U l) (hm : l.length = m) :
    ∃ p, IsPath og U Finset.univ p ∧ pathCost og p ≤ cost pgs U l := by
  induction m generalizing U l with
  | zero =>
    have hl0 : l = [] := List.length_eq_zero_iff.1 hm
    subst hl0
    have hU : U = Finset.univ := by
      by_contra hU; exact completion_ne_nil hl hU rfl
    subst hU
    exact ⟨[Finset.univ], ⟨rfl, rfl, by simp⟩, by simp [pathCost, cost]⟩
  | succ m ih =>
    obtain ⟨v, l', rfl⟩ := List.exists_cons_of_ne_nil (List.ne_nil_of_length_eq_add_one hm)
    obtain ⟨hv, hl'⟩ := hl.cons
    have hcard : U.card + 1 < d + 1 := by
      have : (insert v U).card ≤ d := by
        have := Finset.card_le_univ (insert v U)
        simpa using this
      rw [Finset.card_insert_of_notMem hv] at this
      omega
    have ext : ∀ i l'', i ∉ U → Completion (insert i U) l'' → l''.length = m →
        og U (insert i U) = some (query (pgs i) U) → (query (pgs i) U).2 + cost pgs (insert i U) l'' ≤ cost pgs U (v :: l') →
        ∃ p, IsPath og U Finset.univ p ∧ pathCost og p ≤ cost pgs U (v :: l') := by
      intro i l'' hi hc hlen hog hle
      obtain ⟨p, ⟨p1, p2, p3⟩, p4⟩ := ih (insert i U) l'' hc hlen
      cases p with
      | nil => simp at p1
      | cons b p =>
        simp only [List.head?_cons, Option.some.injEq] at p1
        subst p1
        refine ⟨U :: insert i U :: p, ⟨rfl, ?_, ?_⟩, ?_⟩
        · rw [List.getLast?_cons_cons]; exact p2
        · rw [List.isChain_cons_cons]; exact ⟨by rw [hog]; rfl, p3⟩
        · simp only [pathCost, hog, Option.elim]
          exact (add_le_add_right p4 _).trans hle
    rcases h.out U hcard with h1 | ⟨i, h1, h2, h3⟩
    · exact ext v l' hv hl' (by simpa using hm) (h1 v hv) (le_refl _)
    · have hq := headIn_query h2
      obtain ⟨l'', hl'', hc⟩ := place_next hs h1 hq hl
      refine ext i l'' h1 hl'' ?_ h3 (by rw [hq]; exact hc)
      have e1 : l''.length = ((insert i U)ᶜ).card := by
        rw [← List.toFinset_card_of_nodup hl''.1]; congr 1; ext w; simp [hl''.2]
      have e2 : l'.length = ((insert v U)ᶜ).card := by
        rw [← List.toFinset_card_of_nodup hl'.1]; congr 1; ext w; simp [hl'.2]
      rw [e1, Finset.card_compl, Finset.card_insert_of_notMem h1]
      rw [Finset.card_compl, Finset.card_insert_of_notMem hv] at e2
      simp only [List.length_cons] at hm
      omega

/-- the structures read off a path realize its cost -/
theorem collect_real {pgs : Fin d → PG d K} {og : OG d K} {m : Nat} (h : OGInv pgs og m) (p : List (Finset (Fin d)))
    (U T : Finset (Fin d)) (s : Structs d) (g : WithTop K) (hr : Real pgs U s g) (hp : IsPath og U T p) :
    Real pgs T (collect og s p) (g + pathCost og p) := by
  induction p generalizing U s g with
  | nil => have := hp.1; simp at this
  | cons a p ih =>
    have ha : a = U := by simpa using hp.1
    subst ha
    cases p with
    | nil =>
      have : a = T := by simpa using hp.2.1
      subst this
      simpa [collect, pathCost] using hr
    | cons b p =>
      have hc := List.isChain_cons_cons.1 hp.2.2
      obtain ⟨e, he⟩ := Option.isSome_iff_exists.1 hc.1
      obtain ⟨-, i, hi, hb, hq⟩ := h.edge a b e he
      have hfind : (List.finRange d).find? (fun j => decide (j ∈ b \ a)) = some i := by
        cases hf : (List.finRange d).find? (fun j => decide (j ∈ b \ a)) with
        | none =>
          have := List.find?_eq_none.1 hf i (List.mem_finRange i)
          simp [hb, hi] at this
        | some j =>
          have hj := List.find?_some hf
          simp only [hb, decide_eq_true_eq, Finset.mem_sdiff, Finset.mem_insert] at hj
          rcases hj.1 with hj' | hj'
          · rw [hj']
          · exact absurd hj' hj.2
      have hstep := hr.place hi
      have := ih b (setStruct s i e.1) (g + e.2) (by rw [hb, hq]; exact hstep) ⟨rfl, by
        have := hp.2.1; rw [List.getLast?_cons_cons] at this; exact this, hc.2⟩
      simp only [collect, pathCost]
      rw [hfind, he]
      simp only [Option.elim_some]
      rw [← add_assoc]
      exact this

theorem dp_spec (sp : ShortestPath d K) {pgs : Fin d → PG d K} (hs : Sorted pgs) (ext : Bool) :
    ∃ s g, dp sp pgs ext = some s ∧ Real pgs Finset.univ s g ∧ ∀ l0, Completion ∅ l0 → g ≤ cost pgs ∅ l0 := by
  have hI := orderGraph_inv pgs ext
  have hpath : ∀ l0, Completion ∅ l0 → ∃ p, IsPath (orderGraph pgs ext) ∅ Finset.univ p ∧
      pathCost (orderGraph pgs ext) p ≤ cost pgs ∅ l0 := fun l0 hl0 => exists_path hs hI _ ∅ l0 hl0 rfl
  obtain ⟨l00, hl00⟩ := exists_completion (∅ : Finset (Fin d))
  obtain ⟨p, e1, e2, e3⟩ := sp.spec (orderGraph pgs ext) ∅ Finset.univ (by
    intro a b hab
    obtain ⟨e, he⟩ := Option.isSome_iff_exists.1 hab
    obtain ⟨-, i, hi, hb, -⟩ := hI.edge a b e he
    rw [hb, Finset.card_insert_of_notMem hi]) ⟨_, (hpath l00 hl00).choose_spec.1⟩
  refine ⟨_, 0 + pathCost (orderGraph pgs ext) p, by unfold dp; rw [e1]; rfl,
    collect_real hI p ∅ Finset.univ _ 0 (.nil _) e2, fun l0 hl0 => ?_⟩
  rw [zero_add]
  obtain ⟨q, q1, q2⟩ := hpath l0 hl0
  exact (e3 q q1).trans q2

end Exact
end CL
