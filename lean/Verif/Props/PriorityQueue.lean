import Verif.Model.PriorityQueue
import Mathlib.Data.List.Pairwise
import Mathlib.Algebra.Order.Ring.Int
import Mathlib.Data.List.Nodup
import Mathlib.Data.List.Sort

/-!
# C13: the priority queue of exact search
-/
namespace CL
namespace PQ
variable {K V W : Type} [DecidableEq K] [LinearOrder W]

/-- A call on the queue together with what it returned. -/
inductive Ev (K V W : Type)
  | push (k : K) (v : V) (w : W)
  | delete (k : K)
  | pop (w : W) (k : K) (v : V)

/-- The contents of an ideal queue: at most one entry per key. -/
abbrev Cont (K V W : Type) := K → Option (W × V)

/-- What a call may do to the contents of an ideal queue: `push` a new key, `delete` a present key, `pop` a present entry of
least weight. -/
def Ideal (M : Cont K V W) : Ev K V W → Cont K V W → Prop
  | .push k v w, M' => M k = none ∧ M' = fun k' => if k' = k then some (w, v) else M k'
  | .delete k, M' => M k ≠ none ∧ M' = fun k' => if k' = k then none else M k'
  | .pop w k v, M' => M k = some (w, v) ∧ (∀ k' w' v', M k' = some (w', v') → w ≤ w') ∧
      M' = fun k' => if k' = k then none else M k'

inductive IdealRun : List (Ev K V W) → Cont K V W → Prop
  | nil : IdealRun [] (fun _ => none)
  | snoc {h M e M'} : IdealRun h M → Ideal M e M' → IdealRun (h ++ [e]) M'

/-- A run of the code. Keys are pushed only when the queue reports no entry for them (what the A* search does). -/
inductive CodeRun (Q : HeapQ K V W) : List (Ev K V W) → State K V W → Prop
  | nil : CodeRun Q [] init
  | push {h s k v w} : CodeRun Q h s → get s k = none → CodeRun Q (h ++ [.push k v w]) (push s k v w)
  | delete {h s s' k} : CodeRun Q h s → delete s k = some s' → CodeRun Q (h ++ [.delete k]) s'
  | pop {h s s' w k v} : CodeRun Q h s → pop Q s = .ok w k v s' → CodeRun Q (h ++ [.pop w k v]) s'

/-- representation invariant -/
structure Inv (M : Cont K V W) (s : State K V W) : Prop where
  nd : (s.pq.map Entry.id).Nodup
  fresh : ∀ e ∈ s.pq, e.id < s.fresh
  live : ∀ e ∈ s.pq, e.dead = false → s.entries e.k = some e
  ent : ∀ k e, s.entries k = some e → e ∈ s.pq ∧ e.dead = false ∧ e.k = k
  cont : ∀ k, M k = (s.entries k).map fun e => (e.w, e.v)
  count : s.n = ((s.pq.filter fun e => !e.dead).length : Int)

theorem inv_init : Inv (fun _ => none) (init : State K V W) := by
  constructor <;> simp [init]

theorem Inv.push {M : Cont K V W} {s : State K V W} (h : Inv M s) (k : K) (v : V) (w : W) (hk : s.entries k = none) :
    Inv (fun k' => if k' = k then some (w, v) else M k') (push s k v w) := by
  have hfr : ∀ e ∈ s.pq, e.id ≠ s.fresh := fun e he => Nat.ne_of_lt (h.fresh e he)
  constructor
  · simp only [PQ.push, List.map_cons, List.nodup_cons]
    refine ⟨?_, h.nd⟩
    rw [List.mem_map]
    rintro ⟨e, he, hid⟩
    exact hfr e he hid
  · intro e he
    simp only [PQ.push, List.mem_cons] at he ⊢
    rcases he with rfl | he
    · simp
    · have := h.fresh e he; omega
  · intro e he hd
    simp only [PQ.push, List.mem_cons] at he ⊢
    rcases he with rfl | he
    · simp
    · have := h.live e he hd
      rw [if_neg]
      · exact this
      · rintro hk'; rw [hk', hk] at this; simp at this
  · intro k' e he
    simp only [PQ.push] at he ⊢
    split at he
    · simp at he; subst he; simp_all
    · obtain ⟨h1, h2, h3⟩ := h.ent k' e he
      exact ⟨by simp [h1], h2, h3⟩
  · intro k'
    simp only [PQ.push]
    split
    · simp
    · exact h.cont k'
  · simp [PQ.push, h.count]

theorem Inv.popCons {M : Cont K V W} {s : State K V W} (h : Inv M s) {e : Entry K V W} {h' : List (Entry K V W)}
    (hp : (e :: h').Perm s.pq) (hd : e.dead = true) : Inv M { s with pq := h' } := by
  have hmem : ∀ x, x ∈ s.pq ↔ x = e ∨ x ∈ h' := fun x => by rw [← hp.mem_iff]; simp
  constructor
  · have := (hp.map Entry.id).nodup_iff.2 h.nd
    simp only [List.map_cons, List.nodup_cons] at this
    exact this.2
  · intro x hx; exact h.fresh x ((hmem x).2 (Or.inr hx))
  · intro x hx hdx; exact h.live x ((hmem x).2 (Or.inr hx)) hdx
  · intro k x hx
    obtain ⟨h1, h2, h3⟩ := h.ent k x hx
    refine ⟨?_, h2, h3⟩
    rcases (hmem x).1 h1 with rfl | h1
    · rw [hd] at h2; simp at h2
    · exact h1
  · exact h.cont
  · simp only
    rw [h.count]
    have := (hp.filter fun e => !e.dead).length_eq
    rw [← this, List.filter_cons_of_neg (by simp [hd])]

theorem Inv.remove {M : Cont K V W} {s : State K V W} (h : Inv M s) {e : Entry K V W} {h' : List (Entry K V W)}
    (hp : (e :: h').Perm s.pq) (hd : e.dead = false) :
    Inv (fun k' => if k' = e.k then none else M k')
      ⟨s.n - 1, h', fun k' => if k' = e.k then none else s.entries k', s.fresh⟩ := by
  have hmem : ∀ x, x ∈ s.pq ↔ x = e ∨ x ∈ h' := fun x => by rw [← hp.mem_iff]; simp
  have hnd := (hp.map Entry.id).nodup_iff.2 h.nd
  simp only [List.map_cons, List.nodup_cons] at hnd
  have he := h.live e ((hmem e).2 (Or.inl rfl)) hd
  constructor
  · exact hnd.2
  · intro x hx; exact h.fresh x ((hmem x).2 (Or.inr hx))
  · intro x hx hdx
    have := h.live x ((hmem x).2 (Or.inr hx)) hdx
    simp only
    rw [if_neg]
    · exact this
    · intro hk
      rw [hk, he] at this
      simp at this
      subst this
      exact hnd.1 (List.mem_map_of_mem hx)
  · intro k x hx
    simp only at hx
    split at hx
    · simp at hx
    · obtain ⟨h1, h2, h3⟩ := h.ent k x hx
      refine ⟨?_, h2, h3⟩
      rcases (hmem x).1 h1 with rfl | h1
      · exact absurd h3.symm (by assumption)
      · exact h1
  · intro k
    simp only
    split
    · simp
    · exact h.cont k
  · simp only
    rw [h.count]
    have := (hp.filter fun e => !e.dead).length_eq
    rw [← this, List.filter_cons_of_pos (by simp [hd])]
    simp

theorem Inv.delete {M : Cont K V W} {s s' : State K V W} (h : Inv M s) {k : K} (hdel : delete s k = some s') :
    M k ≠ none ∧ Inv (fun k' => if k' = k then none else M k') s' := by
  unfold PQ.delete at hdel
  cases he : s.entries k with
  | none => rw [he] at hdel; simp at hdel
  | some e =>
    rw [he] at hdel
    simp at hdel
    subst hdel
    obtain ⟨h1, h2, h3⟩ := h.ent k e he
    refine ⟨by rw [h.cont, he]; simp, ?_⟩
    have hid : ∀ x ∈ s.pq, x.id = e.id → x = e := fun x hx hxe => List.inj_on_of_nodup_map h.nd hx h1 hxe
    constructor
    · simp only [List.map_map]
      convert h.nd using 1
      apply List.map_congr_left
      intro x _
      simp only [Function.comp]
      split <;> rfl
    · intro x hx
      simp only [List.mem_map] at hx
      obtain ⟨y, hy, rfl⟩ := hx
      have := h.fresh y hy
      split <;> exact this
    · intro x hx hdx
      simp only [List.mem_map] at hx
      obtain ⟨y, hy, rfl⟩ := hx
      split at hdx
      · simp at hdx
      · rename_i hne
        rw [if_neg hne]
        have := h.live y hy hdx
        simp only
        rw [if_neg]
        · exact this
        · intro hk; rw [hk, he] at this; simp at this; exact hne (by rw [this])
    · intro k' x hx
      simp only at hx
      split at hx
      · simp at hx
      · rename_i hk'
        obtain ⟨g1, g2, g3⟩ := h.ent k' x hx
        refine ⟨?_, g2, g3⟩
        simp only [List.mem_map]
        refine ⟨x, g1, ?_⟩
        rw [if_neg]
        intro hx'
        have := hid x g1 hx'
        subst this
        exact hk' (g3.symm.trans h3)
    · intro k'
      simp only
      split
      · simp
      · exact h.cont k'
    · simp only
      rw [h.count]
      have key : ∀ l : List (Entry K V W), (l.map Entry.id).Nodup → e ∈ l →
          ((l.filter fun e => !e.dead).length : Int) - 1 =
            (((l.map (fun e' => if e'.id = e.id then { e' with dead := true } else e')).filter fun e => !e.dead).length : Int) := by
        intro l
        induction l with
        | nil => intro _ hm; simp at hm
        | cons x l ih =>
          intro hnd hm
          simp only [List.map_cons, List.nodup_cons] at hnd
          by_cases hx : x.id = e.id
          · have hxe : x = e := by
              rcases List.mem_cons.1 hm with rfl | hm
              · rfl
              · exact absurd (hx ▸ List.mem_map_of_mem hm) hnd.1
            subst hxe
            have hrest : l.map (fun e' => if e'.id = x.id then { e' with dead := true } else e') = l := by
              conv_rhs => rw [← List.map_id l]
              apply List.map_congr_left
              intro y hy
              rw [if_neg]
              · rfl
              · intro hyx; exact hnd.1 (hyx ▸ List.mem_map_of_mem hy)
            rw [List.map_cons, hrest, if_pos rfl, List.filter_cons_of_pos (by simp [h2]), List.filter_cons_of_neg (by simp)]
            simp
          · have hm' : e ∈ l := by
              rcases List.mem_cons.1 hm with rfl | hm
              · exact absurd rfl hx
              · exact hm
            have := ih hnd.2 hm'
            rw [List.map_cons, if_neg hx]
            cases hd : x.dead
            · rw [List.filter_cons_of_pos (by simp [hd]), List.filter_cons_of_pos (by simp [hd])]
              push_cast [List.length_cons]
              omega
            · rw [List.filter_cons_of_neg (by simp [hd]), List.filter_cons_of_neg (by simp [hd])]
              exact this
      exact key s.pq h.nd h1

/-- full specification of `pop` -/
theorem popLoop_spec (Q : HeapQ K V W) {M : Cont K V W} (f : Nat) (s : State K V W) (h : Inv M s) (hf : s.pq.length < f) :
    (∃ w k v s', popLoop Q f s = .ok w k v s' ∧ M k = some (w, v) ∧ (∀ k' w' v', M k' = some (w', v') → w ≤ w') ∧
        Inv (fun k' => if k' = k then none else M k') s') ∨
    (popLoop Q f s = .keyError ∧ ∀ k, M k = none) := by
  induction f generalizing s with
  | zero => omega
  | succ f ih =>
    unfold popLoop
    by_cases hn : s.n = 0
    · rw [if_pos hn]
      right
      refine ⟨rfl, fun k => ?_⟩
      rw [h.cont]
      cases he : s.entries k with
      | none => rfl
      | some e =>
        exfalso
        obtain ⟨h1, h2, -⟩ := h.ent k e he
        have hc := h.count
        rw [hn] at hc
        have : e ∈ s.pq.filter fun e => !e.dead := by simp [h1, h2]
        have := List.length_pos_of_mem this
        omega
    · rw [if_neg hn]
      have hne : s.pq ≠ [] := by
        intro h0; have := h.count; rw [h0] at this; simp at this; exact hn this
      obtain ⟨e, h', hp, hperm, hmin⟩ := Q.spec s.pq hne
      rw [hp]
      simp only [Option.elim]
      cases hd : e.dead with
      | true =>
        simp only [if_true]
        have hlen := hperm.length_eq
        simp at hlen
        exact ih _ (h.popCons hperm hd) (by simp only; omega)
      | false =>
        simp only [Bool.false_eq_true, if_false]
        have hem : e ∈ s.pq := hperm.mem_iff.1 (by simp)
        have hl := h.live e hem hd
        rw [hl]
        left
        refine ⟨_, _, _, _, rfl, by rw [h.cont, hl]; rfl, ?_, h.remove hperm hd⟩
        intro k' w' v' hk'
        rw [h.cont] at hk'
        cases he' : s.entries k' with
        | none => rw [he'] at hk'; simp at hk'
        | some e' =>
          rw [he'] at hk'
          simp at hk'
          obtain ⟨h1, -, -⟩ := h.ent k' e' he'
          rw [← hk'.1]
          exact hmin e' h1

theorem codeRun_inv (Q : HeapQ K V W) {hist : List (Ev K V W)} {s : State K V W} (h : CodeRun Q hist s) :
    ∃ M, IdealRun hist M ∧ Inv M s := by
  induction h with
  | nil => exact ⟨_, .nil, inv_init⟩
  | @push h s k v w _ hk ih =>
    obtain ⟨M, h1, h2⟩ := ih
    have hk' : s.entries k = none := by simpa [get] using hk
    exact ⟨_, .snoc h1 ⟨by rw [h2.cont, hk']; rfl, rfl⟩, h2.push k v w hk'⟩
  | @delete h s s' k _ hk ih =>
    obtain ⟨M, h1, h2⟩ := ih
    obtain ⟨g1, g2⟩ := h2.delete hk
    exact ⟨_, .snoc h1 ⟨g1, rfl⟩, g2⟩
  | @pop h s s' w k v _ hp ih =>
    obtain ⟨M, h1, h2⟩ := ih
    rcases popLoop_spec Q (s.pq.length + 1) s h2 (by omega) with ⟨w', k', v', s'', e, g1, g2, g3⟩ | ⟨e, -⟩
    · unfold pop at hp
      rw [e] at hp
      simp at hp
      obtain ⟨rfl, rfl, rfl, rfl⟩ := hp
      exact ⟨_, .snoc h1 ⟨g1, g2, rfl⟩, g3⟩
    · unfold pop at hp
      rw [e] at hp; simp at hp

/-- After every history of calls in which a key is pushed only while absent, whatever the order of ties inside `heapq`: the
history is one an ideal queue could have produced (every pop returned the entry of least weight among the present ones, with
the contents pushed for that key), and in the resulting state `get` reports exactly the present entries, `delete` succeeds
exactly on present keys, `len` is the number of present entries, and `pop` raises `KeyError` exactly when nothing is present. -/
theorem C13_refines_ideal_queue (Q : HeapQ K V W) {hist : List (Ev K V W)} {s : State K V W} (h : CodeRun Q hist s) :
    ∃ M, IdealRun hist M ∧ (∀ k, get s k = M k) ∧ (∀ k, (delete s k).isSome ↔ M k ≠ none) ∧
      (pop Q s = .keyError ↔ ∀ k, M k = none) ∧
      ∃ L : List K, L.Nodup ∧ (∀ k, k ∈ L ↔ M k ≠ none) ∧ s.n = L.length := by
  obtain ⟨M, h1, h2⟩ := codeRun_inv Q h
  refine ⟨M, h1, fun k => (h2.cont k).symm, fun k => ?_, ?_, ?_⟩
  · rw [h2.cont]; unfold delete
    cases s.entries k <;> simp
  · rcases popLoop_spec Q (s.pq.length + 1) s h2 (by omega) with ⟨w', k', v', s'', e, g1, -⟩ | ⟨e, g⟩
    · unfold pop; rw [e]
      simp only [reduceCtorEq, false_iff]
      intro hall; rw [hall k'] at g1; simp at g1
    · unfold pop; rw [e]; simpa using g
  · refine ⟨(s.pq.filter fun e => !e.dead).map Entry.k, ?_, ?_, ?_⟩
    · rw [List.nodup_map_iff_inj_on]
      · intro x hx y hy hxy
        simp only [List.mem_filter, Bool.not_eq_true'] at hx hy
        have a := h2.live x hx.1 hx.2
        have b := h2.live y hy.1 hy.2
        rw [hxy, b] at a
        simpa using a.symm
      · exact (List.Nodup.of_map _ h2.nd).filter _
    · intro k
      rw [h2.cont]
      constructor
      · intro hk
        obtain ⟨e, he, rfl⟩ := List.mem_map.1 hk
        simp only [List.mem_filter, Bool.not_eq_true'] at he
        rw [h2.live e he.1 he.2]; simp
      · intro hk
        cases he : s.entries k with
        | none => rw [he] at hk; simp at hk
        | some e =>
          obtain ⟨g1, g2, g3⟩ := h2.ent k e he
          rw [← g3]
          exact List.mem_map_of_mem (by simp [g1, g2])
    · rw [h2.count]; simp

/-- a concrete `heapq`: sorted by weight -/
def sortedQ (K V : Type) : HeapQ K V Nat where
  pop h := match h.insertionSort (fun a b => a.w ≤ b.w) with
    | [] => none
    | e :: t => some (e, t)
  nil := rfl
  spec := by
    intro h hne
    have hp := List.perm_insertionSort (fun a b : Entry K V Nat => a.w ≤ b.w) h
    have : Std.Total (fun a b : Entry K V Nat => a.w ≤ b.w) := ⟨fun a b => le_total _ _⟩
    have : IsTrans (Entry K V Nat) (fun a b => a.w ≤ b.w) := ⟨fun a b c => le_trans⟩
    have hs := List.pairwise_insertionSort (fun a b : Entry K V Nat => a.w ≤ b.w) h
    cases hc : h.insertionSort (fun a b => a.w ≤ b.w) with
    | nil => rw [hc] at hp; exact absurd hp.symm.eq_nil hne
    | cons e t =>
      rw [hc] at hp hs
      refine ⟨e, t, by simp only [hc], hp, fun e' he' => ?_⟩
      rcases List.mem_cons.1 (hp.mem_iff.2 he') with rfl | h
      · exact le_refl _
      · exact (List.pairwise_cons.1 hs).1 e' h

/-- Pushing a key that is still present does not replace its entry: the old entry is popped as well (here weight 1, pushed
first, although key 0 was pushed again with weight 2), and afterwards `get` no longer knows the newer entry. -/
theorem C13_repush_violated :
    ∃ (s s' : State Nat Unit Nat), s = push (push init 0 () 1) 0 () 2 ∧ get s 0 = some (2, ()) ∧
      pop (sortedQ Nat Unit) s = .ok 1 0 () s' ∧ get s' 0 = none ∧ pop (sortedQ Nat Unit) s' = .keyError := by
  refine ⟨_, _, rfl, rfl, rfl, rfl, rfl⟩

/-- A history that meets the hypotheses: push 0, push 1, delete 0, push 0 again, pop. -/
example : ∃ s, CodeRun (sortedQ Nat Unit)
    ([] ++ [.push 0 () 5] ++ [.push 1 () 7] ++ [.delete 0] ++ [.push 0 () 9] ++ [.pop 7 1 ()]) s := by
  refine ⟨_, .pop (.push (.delete (.push (.push .nil ?_) ?_) rfl) ?_) rfl⟩ <;> rfl

end PQ
end CL
