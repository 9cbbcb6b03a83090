import Verif.Model.Sepset
import Verif.Props.DSepQuery
import Verif.Proofs.IMap
import Verif.Proofs.DSepDecide
import Mathlib.Data.List.Perm.Basic
import Mathlib.Data.Fintype.Card
import Mathlib.Algebra.Order.BigOperators.Group.List
import Mathlib.Tactic.Ring
import Mathlib.Tactic.Linarith

/-!
# C130: `get_sepset` returns a d-separating set, exactly when there is one
-/
namespace CL
open GG Relation Spec
variable {n : Nat}

/-! ### The pieces -/

/-- `is_ancestor` terminates on a DAG, with a bound that does not depend on the query. -/
theorem ancLoop_total {G : GG n} (hs : G.Simple) {ρ : Fin n → Nat} (hρ : ∀ a b, G.Arrow a b → ρ a < ρ b) (node : Fin n) :
    ∀ (f : Nat) (Q : List (Fin n)), (Q.map fun v => (n + 1) ^ ρ v).sum < f → ancLoop G node f Q ≠ none := by
  intro f
  induction f with
  | zero => intro Q h; omega
  | succ f ih =>
    intro Q h
    cases Q with
    | nil => simp [ancLoop]
    | cons t Q =>
      rw [ancLoop]
      split
      · simp
      · refine ih _ ?_
        have hpush : ∀ (ps Q : List (Fin n)), ((ancPush ps Q).map fun v => (n + 1) ^ ρ v).sum ≤
            (ps.map fun v => (n + 1) ^ ρ v).sum + (Q.map fun v => (n + 1) ^ ρ v).sum := by
          intro ps
          induction ps with
          | nil => intro Q; simp [ancPush]
          | cons p ps ihp =>
            intro Q
            have := ihp (if p ∈ Q then Q else p :: Q)
            unfold ancPush at this ⊢
            rw [List.foldl_cons]
            refine this.trans ?_
            split <;> simp <;> omega
        have hp : ((G.parents t).map fun v => (n + 1) ^ ρ v).sum + 1 ≤ (n + 1) ^ ρ t := by
          have hlen : (G.parents t).length ≤ n := by
            have : (G.parents t).length ≤ (List.finRange n).length := List.length_filter_le _ _
            simpa using this
          have hlt : ∀ p ∈ G.parents t, ρ p < ρ t := fun p hp => hρ _ _ ((mem_parents_simple hs p t).1 hp)
          by_cases h0 : ρ t = 0
          · have : G.parents t = [] := by
              rw [List.eq_nil_iff_forall_not_mem]
              intro p hp
              have := hlt p hp
              omega
            simp [this, h0]
          · obtain ⟨k, hk⟩ := Nat.exists_eq_succ_of_ne_zero h0
            have hb : ((G.parents t).map fun v => (n + 1) ^ ρ v).sum ≤ (G.parents t).length * (n + 1) ^ k := by
              have := List.sum_le_card_nsmul ((G.parents t).map fun v => (n + 1) ^ ρ v) ((n + 1) ^ k) (by
                intro x hx
                obtain ⟨p, hp, rfl⟩ := List.mem_map.1 hx
                exact Nat.pow_le_pow_right (by omega) (by have := hlt p hp; omega))
              simpa using this
            have h2 : (G.parents t).length * (n + 1) ^ k ≤ n * (n + 1) ^ k := Nat.mul_le_mul_right _ hlen
            have h3 : (n + 1) ^ ρ t = n * (n + 1) ^ k + (n + 1) ^ k := by rw [hk, Nat.succ_eq_add_one, pow_succ]; ring
            have h4 : 1 ≤ (n + 1) ^ k := Nat.one_le_pow _ _ (by omega)
            omega
        have := hpush (G.parents t) Q
        simp at h
        omega

theorem isAncestorOfSet_total {G : GG n} (hs : G.Simple) (hac : Acyclic G.Arrow) :
    ∃ F, ∀ af, F ≤ af → ∀ (node : Fin n) (z : List (Fin n)), z.Nodup → G.isAncestorOfSet node z af ≠ none := by
  obtain ⟨ρ, hρ⟩ := hac.exists_rank
  refine ⟨((List.finRange n).map fun v => (n + 1) ^ ρ v).sum + 1, fun af haf node z hz => ?_⟩
  unfold isAncestorOfSet
  split
  · simp
  · refine ancLoop_total hs hρ node af _ ?_
    have hsub : z.reverse.Subperm (List.finRange n) :=
      (List.nodup_reverse.2 hz).subperm fun v _ => List.mem_finRange v
    obtain ⟨l, hl1, hl2⟩ := hsub
    have h1 := (hl1.map fun v => (n + 1) ^ ρ v).sum_eq
    have h2 := (hl2.map fun v => (n + 1) ^ ρ v).sum_le_sum (by simp)
    omega

theorem mem_adjacent {G : GG n} (hd : G.AllDirected) {a b : Fin n} : b ∈ G.adjacentNodes a ↔ Adj G.Arrow a b := by
  rw [adj_iff hd]
  have := hd.wf.symm a b
  simp [adjacentNodes, this]

theorem defCollider_iff {G : GG n} (hd : G.AllDirected) {a b c : Fin n} (hab : a ≠ b) (hbc : b ≠ c) (h1 : Adj G.Arrow a b)
    (h2 : Adj G.Arrow b c) : G.isDefCollider a b c = true ↔ Collider G.Arrow a b c := by
  have p := (adj_iff hd a b).1 h1
  have q := (adj_iff hd b c).1 h2
  have p' : G.g b a ≠ .null := fun h => p ((hd.wf.symm a b).2 h)
  have e1 := mkEdge_proximal (G.g a b) (G.g b a) hab
  have e2 := mkEdge_proximal (G.g b c) (G.g c b) hbc
  have k1 := hd a b p
  have k2 := hd b c q
  unfold isDefCollider getEdge Collider
  unfold GG.Arrow at k1 k2 ⊢
  simp [p, q, e1, e2, p']
  grind

theorem nodeReachable_spec {G : GG n} (hd : G.AllDirected) {a b c : Fin n} (hab : a ≠ b) (hbc : b ≠ c)
    (h1 : Adj G.Arrow a b) (h2 : Adj G.Arrow b c) {z : List (Fin n)} {af : Nat} {r : Bool}
    (h : G.nodeReachable a b c z af = some r) : r = true ↔ Open G.Arrow {v | v ∈ z} a b c := by
  have hcol := defCollider_iff hd hab hbc h1 h2
  unfold nodeReachable at h
  split at h
  · rename_i hc
    simp at h hc
    have : ¬ Collider G.Arrow a b c := fun hh => by simp [hcol.2 hh] at hc
    subst h
    simp [Open, this, hc.2]
  · rename_i hc
    obtain ⟨anc, ha, rfl⟩ := Option.map_eq_some_iff.1 h
    have := isAncestorOfSet_spec hd.simple _ _ _ _ ha
    unfold Open
    rw [← this, ← hcol]
    simp at hc
    by_cases k : G.isDefCollider a b c = true
    · simp [k]
    · have k' : G.isDefCollider a b c = false := by simpa using k
      simp [k', hc k']

theorem passLoop_spec {G : GG n} (hd : G.AllDirected) (hac : Acyclic G.Arrow) {a b : Fin n} (h1 : Adj G.Arrow a b)
    {z : List (Fin n)} {af : Nat} : ∀ (cs ps : List (Fin n)), (∀ c ∈ cs, Adj G.Arrow b c) →
    passLoop G a b z af cs = some ps → ∀ c, c ∈ ps ↔ c ∈ cs ∧ c ≠ a ∧ Open G.Arrow {v | v ∈ z} a b c := by
  intro cs
  induction cs with
  | nil => intro ps _ h; simp [passLoop] at h; simp [h]
  | cons d cs ih =>
    intro ps hcs h c
    rw [passLoop] at h
    split at h
    · rename_i hda
      subst hda
      rw [ih ps (fun c hc => hcs c (by simp [hc])) h]
      simp only [List.mem_cons]
      grind
    · rename_i hda
      obtain ⟨r, hr, h⟩ := Option.bind_eq_some_iff.1 h
      obtain ⟨ps', hps, rfl⟩ := Option.map_eq_some_iff.1 h
      have hdb := hcs d (by simp)
      have key := nodeReachable_spec hd (hac.ne_of_adj h1) (hac.ne_of_adj hdb) h1 hdb hr
      have := ih ps' (fun c hc => hcs c (by simp [hc])) hps c
      cases r
      · simp only [Bool.false_eq_true, if_false, List.mem_cons, this]
        simp only [Bool.false_eq_true, false_iff] at key
        grind
      · simp only [if_true, List.mem_cons, this]
        simp only [true_iff] at key
        grind

theorem passNodes_spec {G : GG n} (hd : G.AllDirected) (hac : Acyclic G.Arrow) {a b : Fin n} (h1 : Adj G.Arrow a b)
    {z : List (Fin n)} {af : Nat} {ps : List (Fin n)} (h : G.passNodes a b z af = some ps) (c : Fin n) :
    c ∈ ps ↔ Adj G.Arrow b c ∧ c ≠ a ∧ Open G.Arrow {v | v ∈ z} a b c := by
  rw [passLoop_spec hd hac h1 _ _ (fun c hc => (mem_adjacent hd).1 hc) h, mem_adjacent hd]

/-! ### `z` only grows, and only off the path -/

/-- how `z` may change over a call with the given path -/
structure Grow (y : Fin n) (path z z' : List (Fin n)) : Prop where
  sub : z.Sublist z'
  new : ∀ v ∈ z', v ∈ z ∨ (v ∉ path ∧ v ≠ y)
  nodup : z.Nodup → z'.Nodup

theorem Grow.refl (y : Fin n) (path z : List (Fin n)) : Grow y path z z := ⟨.refl _, fun _ h => .inl h, id⟩

theorem Grow.trans {y : Fin n} {path z z' z'' : List (Fin n)} (h : Grow y path z z') (h' : Grow y path z' z'') :
    Grow y path z z'' :=
  ⟨h.sub.trans h'.sub, fun v hv => (h'.new v hv).elim (h.new v) .inr, h'.nodup ∘ h.nodup⟩

theorem Grow.weaken {y : Fin n} {b : Fin n} {path z z' : List (Fin n)} (h : Grow y (b :: path) z z') : Grow y path z z' :=
  ⟨h.sub, fun v hv => (h.new v hv).imp_right fun h => ⟨fun k => h.1 (by simp [k]), h.2⟩, h.nodup⟩

theorem anyPath_grow {y : Fin n} {path : List (Fin n)} {f : Fin n → List (Fin n) → Option (Bool × List (Fin n))}
    (hf : ∀ c z r z', f c z = some (r, z') → Grow y path z z') :
    ∀ (cs z : List (Fin n)) (r : Bool) (z' : List (Fin n)), anyPath f cs z = some (r, z') → Grow y path z z' := by
  intro cs
  induction cs with
  | nil => intro z r z' h; simp [anyPath] at h; rw [← h.2]; exact .refl _ _ _
  | cons c cs ih =>
    intro z r z' h
    rw [anyPath] at h
    obtain ⟨⟨r1, z1⟩, h1, h⟩ := Option.bind_eq_some_iff.1 h
    dsimp only at h
    have g1 := hf _ _ _ _ h1
    split at h
    · simp at h
      rw [← h.2]; exact g1
    · exact g1.trans (ih _ _ _ h)

theorem Grow.append {y b : Fin n} {path z z1 z2 : List (Fin n)} (hby : b ≠ y) (hbp : b ∉ path) (hbz : b ∉ z)
    (g1 : Grow y (b :: path) z z1) (g2 : Grow y (b :: path) (z1 ++ [b]) z2) :
    b ∉ z1 ∧ Grow y path z z2 ∧ Grow y path z (z2.erase b) := by
  have hb1 : b ∉ z1 := fun h => by
    rcases g1.new b h with h | h
    · exact hbz h
    · exact h.1 (by simp)
  have hnd : z.Nodup → z2.Nodup := fun h => g2.nodup (by
    rw [List.nodup_append]
    refine ⟨g1.nodup h, by simp, ?_⟩
    intro a ha c hc hac
    simp at hc
    subst hc hac
    exact hb1 ha)
  have hnew : ∀ v ∈ z2, v ∈ z ∨ (v ∉ path ∧ v ≠ y) := by
    intro v hv
    rcases g2.new v hv with h | h
    · rcases List.mem_append.1 h with h | h
      · exact g1.weaken.new v h
      · simp at h
        subst h
        exact .inr ⟨hbp, hby⟩
    · exact .inr ⟨fun k => h.1 (by simp [k]), h.2⟩
  refine ⟨hb1, ⟨?_, hnew, hnd⟩, ⟨?_, fun v hv => hnew v (List.mem_of_mem_erase hv), fun h => (hnd h).erase _⟩⟩
  · exact g1.sub.trans ((List.sublist_append_left _ _).trans g2.sub)
  · have := g2.sub.erase b
    rw [List.erase_append_right _ hb1] at this
    simp at this
    exact g1.sub.trans this

theorem spf_grow {G : GG n} {lat : Fin n → Bool} {y : Fin n} {af : Nat} : ∀ (f : Nat) (a b : Fin n) (path z : List (Fin n))
    (r : Bool) (z' : List (Fin n)), sepsetPathFound G lat y af f a b path z = some (r, z') → Grow y path z z' := by
  intro f
  induction f with
  | zero => intro a b path z r z' h; simp [sepsetPathFound] at h
  | succ f ih =>
    intro a b path z r z' h
    rw [sepsetPathFound] at h
    split at h
    · simp at h; rw [← h.2]; exact .refl _ _ _
    · rename_i hby
      split at h
      · simp at h; rw [← h.2]; exact .refl _ _ _
      · rename_i hbp
        have hany := anyPath_grow (y := y) (path := b :: path)
          (f := fun c z' => sepsetPathFound G lat y af f b c (b :: path) z') (fun c z r z' h => ih _ _ _ _ _ _ h)
        split at h
        · obtain ⟨ps, -, h⟩ := Option.bind_eq_some_iff.1 h
          exact (hany _ _ _ _ h).weaken
        · rename_i hbz
          simp [latentTest] at hbz
          obtain ⟨ps, -, h⟩ := Option.bind_eq_some_iff.1 h
          obtain ⟨⟨r1, z1⟩, hr1, h⟩ := Option.bind_eq_some_iff.1 h
          dsimp only at h
          have g1 := hany _ _ _ _ hr1
          split at h
          · obtain ⟨ps2, -, h⟩ := Option.bind_eq_some_iff.1 h
            obtain ⟨⟨r2, z2⟩, hr2, h⟩ := Option.bind_eq_some_iff.1 h
            dsimp only at h
            have g2 := hany _ _ _ _ hr2
            obtain ⟨-, k1, k2⟩ := Grow.append hby hbp hbz g1 g2
            split at h
            · simp at h; rw [← h.2]; exact k2
            · simp at h; rw [← h.2]; exact k1
          · simp at h; rw [← h.2]; exact g1.weaken

/-! ### Soundness: a pass that changes nothing and finds nothing proves d-separation -/

theorem anyPath_false {y : Fin n} {path : List (Fin n)} {f : Fin n → List (Fin n) → Option (Bool × List (Fin n))}
    (hf : ∀ c z r z', f c z = some (r, z') → Grow y path z z') :
    ∀ (cs z : List (Fin n)), anyPath f cs z = some (false, z) → ∀ c ∈ cs, f c z = some (false, z) := by
  intro cs
  induction cs with
  | nil => simp
  | cons d cs ih =>
    intro z h
    rw [anyPath] at h
    obtain ⟨⟨r1, z1⟩, h1, h⟩ := Option.bind_eq_some_iff.1 h
    dsimp only at h
    split at h
    · rename_i hr; simp [hr] at h
    · rename_i hr
      have g1 := hf _ _ _ _ h1
      have g2 := anyPath_grow hf _ _ _ _ h
      have e : z1 = z := (g2.sub.eq_of_length_le g1.sub.length_le)
      have hr' : r1 = false := by simpa using hr
      subst hr'
      subst e
      intro c hc
      rcases List.mem_cons.1 hc with rfl | hc
      · exact h1
      · exact ih _ h c hc

theorem spf_false {G : GG n} (hd : G.AllDirected) (hac : Acyclic G.Arrow) {lat : Fin n → Bool} {y : Fin n} {af : Nat} :
    ∀ (f : Nat) (a b : Fin n) (path z : List (Fin n)), Adj G.Arrow a b → a ∈ path →
      sepsetPathFound G lat y af f a b path z = some (false, z) →
      ∀ l : List (Fin n), (b :: l).Nodup → (∀ v ∈ b :: l, v ∉ path) → (b :: l).getLast? = some y →
        ¬ ActiveSeq G.Arrow {v | v ∈ z} (a :: b :: l) := by
  intro f
  induction f with
  | zero => intro a b path z _ _ h; simp [sepsetPathFound] at h
  | succ f ih =>
    intro a b path z hadj hap h l hnd hdis hlast hact
    rw [sepsetPathFound] at h
    split at h
    · simp at h
    · rename_i hby
      rw [if_neg (hdis b (by simp))] at h
      have hany : ∀ ps, anyPath (fun c z' => sepsetPathFound G lat y af f b c (b :: path) z') ps z = some (false, z) →
          ∀ c ∈ ps, sepsetPathFound G lat y af f b c (b :: path) z = some (false, z) := fun ps =>
        anyPath_false (y := y) (path := b :: path) (fun c z r z' h => spf_grow _ _ _ _ _ _ _ h) ps z
      have key : ∃ ps, G.passNodes a b z af = some ps ∧
          anyPath (fun c z' => sepsetPathFound G lat y af f b c (b :: path) z') ps z = some (false, z) := by
        split at h
        · exact Option.bind_eq_some_iff.1 h
        · rename_i hbz
          simp [latentTest] at hbz
          obtain ⟨ps, hps, h⟩ := Option.bind_eq_some_iff.1 h
          obtain ⟨⟨r1, z1⟩, hr1, h⟩ := Option.bind_eq_some_iff.1 h
          dsimp only at h
          have g1 := anyPath_grow (y := y) (path := b :: path) (fun c z r z' h => spf_grow _ _ _ _ _ _ _ h) _ _ _ _ hr1
          split at h
          · exfalso
            obtain ⟨ps2, -, h⟩ := Option.bind_eq_some_iff.1 h
            obtain ⟨⟨r2, z2⟩, hr2, h⟩ := Option.bind_eq_some_iff.1 h
            dsimp only at h
            have g2 := anyPath_grow (y := y) (path := b :: path) (fun c z r z' h => spf_grow _ _ _ _ _ _ _ h) _ _ _ _ hr2
            split at h
            · simp at h
            · simp at h
              have l1 := g1.sub.length_le
              have l2 := g2.sub.length_le
              rw [h] at l2
              simp at l2
              omega
          · rename_i hr
            simp at h
            subst h
            exact ⟨ps, hps, by simpa [show r1 = false by simpa using hr] using hr1⟩
      obtain ⟨ps, hps, hany'⟩ := key
      cases l with
      | nil => simp at hlast; exact hby hlast
      | cons c l =>
        obtain ⟨-, ho, ht⟩ := activeSeq_cons.1 hact
        have hbc : Adj G.Arrow b c := ht.edge b c ⟨[], l, by simp⟩
        have hca : c ≠ a := fun h => hdis c (by simp) (h ▸ hap)
        have hc : c ∈ ps := (passNodes_spec hd hac hadj hps c).2 ⟨hbc, hca, ho⟩
        refine ih b c (b :: path) z hbc (by simp) (hany ps hany' c hc) l (List.nodup_cons.1 hnd).2 ?_ (by simpa using hlast) ht
        intro v hv
        rw [List.mem_cons]
        rintro (rfl | h)
        · exact (List.nodup_cons.1 hnd).1 hv
        · exact hdis v (by simp [List.mem_cons.1 hv]) h

theorem sepsetLoop_sound {G : GG n} (hd : G.AllDirected) (hac : Acyclic G.Arrow) {lat : Fin n → Bool} {x y : Fin n}
    (hxy : x ≠ y) {af pf : Nat} : ∀ (f : Nat) (z0 z : List (Fin n)), x ∉ z0 → y ∉ z0 → z0.Nodup →
      sepsetLoop G lat x y af pf f z0 = some (some z) →
      x ∉ z ∧ y ∉ z ∧ z.Nodup ∧ DSep G.Arrow {v | v ∈ z} x y := by
  intro f
  induction f with
  | zero => intro z0 z _ _ _ h; simp [sepsetLoop] at h
  | succ f ih =>
    intro z0 z hx hy hnd h
    rw [sepsetLoop] at h
    obtain ⟨⟨r, z1⟩, hr, h⟩ := Option.bind_eq_some_iff.1 h
    dsimp only at h
    have hgr : ∀ c z r z', sepsetPathFound G lat y af pf x c [x] z = some (r, z') → Grow y [x] z z' :=
      fun c z r z' h => spf_grow _ _ _ _ _ _ _ h
    have g := anyPath_grow hgr _ _ _ _ hr
    have hx1 : x ∉ z1 := fun k => (g.new x k).elim hx fun k => k.1 (by simp)
    have hy1 : y ∉ z1 := fun k => (g.new y k).elim hy fun k => k.2 rfl
    split at h
    · simp at h
    · rename_i hrf
      split at h
      · rename_i hp
        simp at h
        subst h
        have e : z1 = z0 := (g.sub.eq_of_length_le (List.isPerm_iff.1 hp).length_eq.le).symm
        subst e
        refine ⟨hx, hy, hnd, ?_⟩
        rintro ⟨l, hl, hh, hlast, hact⟩
        have hr' : r = false := by simpa using hrf
        subst hr'
        have hall := anyPath_false hgr _ _ hr
        match l, hh, hlast, hl, hact with
        | [], hh, _, _, _ => simp at hh
        | [a], hh, hlast, _, _ => simp at hh hlast; exact hxy (hh ▸ hlast)
        | a :: b :: l, hh, hlast, hl, hact =>
          simp at hh
          subst hh
          have hab : Adj G.Arrow a b := hact.edge a b ⟨[], l, by simp⟩
          refine spf_false hd hac pf a b [a] z1 hab (by simp) (hall b ((mem_adjacent hd).2 hab)) l (List.nodup_cons.1 hl).2 ?_
            (by simpa using hlast) hact
          intro v hv
          rw [List.mem_singleton]
          rintro rfl
          exact (List.nodup_cons.1 hl).1 hv
      · exact ih z1 z hx1 hy1 (g.nodup hnd) h

/-! ### Completeness: on a DAG nothing is found for non-adjacent nodes -/

theorem _root_.Spec.ActiveSeq.mono_z {E : Fin n → Fin n → Prop} {z z' l : List (Fin n)} (h : ActiveSeq E {v | v ∈ z} l) (hs : z ⊆ z')
    (hn : ∀ v ∈ l.tail, v ∈ z' → v ∈ z) : ActiveSeq E {v | v ∈ z'} l := by
  refine ⟨h.edge, fun a b c habc => ?_⟩
  obtain ⟨h1, h2⟩ := h.opened a b c habc
  refine ⟨fun hc => ?_, fun hc hb => h2 hc (hn b ?_ hb)⟩
  · obtain ⟨v, hv, hp⟩ := h1 hc
    exact ⟨v, hs hv, hp⟩
  · obtain ⟨s, t, rfl⟩ := habc
    cases s <;> simp

/-- the invariant of a call in a search from `x`: the nodes of `z` are ancestors of `x` or `y`, and the path including the
new node is active -/
structure CallOk (E : Fin n → Fin n → Prop) (x y a b : Fin n) (path z : List (Fin n)) : Prop where
  anc : ∀ v ∈ z, AncOf E {x, y} v
  head : path.head? = some a
  last : path.getLast? = some x
  act : ActiveSeq E {v | v ∈ z} (b :: path)

theorem anc_trans {E : Fin n → Fin n → Prop} {x y : Fin n} {z : List (Fin n)} (hz : ∀ v ∈ z, AncOf E {x, y} v) {b : Fin n}
    (h : AncOf E {v | v ∈ z} b) : AncOf E {x, y} b := by
  obtain ⟨v, hv, hp⟩ := h
  obtain ⟨w, hw, hq⟩ := hz v hv
  exact ⟨w, hw, hp.trans hq⟩

/-- what a successful call means: the node is `y`, or a common child of the previous node and `y` that is an ancestor of
`x` or `y` -/
def SpHit (E : Fin n → Fin n → Prop) (x y a b : Fin n) : Prop := b = y ∨ (E a b ∧ E y b ∧ AncOf E {x, y} b)

theorem anyPath_ok {E : Fin n → Fin n → Prop} {x y b : Fin n} {path : List (Fin n)}
    {f : Fin n → List (Fin n) → Option (Bool × List (Fin n))}
    (hg : ∀ c z r z', f c z = some (r, z') → Grow y (b :: path) z z')
    (hf : ∀ c z r z', CallOk E x y b c (b :: path) z → f c z = some (r, z') →
      (∀ v ∈ z', AncOf E {x, y} v) ∧ (r = true → SpHit E x y b c)) :
    ∀ (cs z : List (Fin n)) (r : Bool) (z' : List (Fin n)), (∀ v ∈ z, AncOf E {x, y} v) →
      (∀ c ∈ cs, CallOk E x y b c (b :: path) z) → anyPath f cs z = some (r, z') →
      (∀ v ∈ z', AncOf E {x, y} v) ∧ (r = true → ∃ c ∈ cs, SpHit E x y b c) := by
  intro cs
  induction cs with
  | nil => intro z r z' hz _ h; simp only [anyPath, Option.some.injEq, Prod.mk.injEq] at h; obtain ⟨rfl, rfl⟩ := h; exact ⟨hz, by simp⟩
  | cons c cs ih =>
    intro z r z' hz hcs h
    rw [anyPath] at h
    obtain ⟨⟨r1, z1⟩, h1, h⟩ := Option.bind_eq_some_iff.1 h
    dsimp only at h
    obtain ⟨k1, k2⟩ := hf _ _ _ _ (hcs c (by simp)) h1
    have g := hg _ _ _ _ h1
    split at h
    · rename_i hr
      simp only [Option.some.injEq, Prod.mk.injEq] at h
      obtain ⟨rfl, rfl⟩ := h
      exact ⟨k1, fun _ => ⟨c, by simp, k2 hr⟩⟩
    · obtain ⟨m1, m2⟩ := ih _ _ _ k1 (fun d hd => by
        have hd := hcs d (by simp [hd])
        refine ⟨k1, hd.head, hd.last, hd.act.mono_z g.sub.subset ?_⟩
        intro v hv hv1
        exact (g.new v hv1).resolve_right fun k => k.1 (by simpa using hv)) h
      exact ⟨m1, fun hr => by obtain ⟨d, hd, hh⟩ := m2 hr; exact ⟨d, by simp [hd], hh⟩⟩

theorem spf_ok {G : GG n} (hd : G.AllDirected) (hac : Acyclic G.Arrow) {lat : Fin n → Bool} {x y : Fin n} {af : Nat} :
    ∀ (f : Nat) (a b : Fin n) (path z : List (Fin n)) (r : Bool) (z' : List (Fin n)),
      CallOk G.Arrow x y a b path z → sepsetPathFound G lat y af f a b path z = some (r, z') →
      (∀ v ∈ z', AncOf G.Arrow {x, y} v) ∧ (r = true → SpHit G.Arrow x y a b) := by
  intro f
  induction f with
  | zero => intro a b path z r z' _ h; simp [sepsetPathFound] at h
  | succ f ih =>
    intro a b path z r z' ok h
    rw [sepsetPathFound] at h
    split at h
    · rename_i hby
      simp only [Option.some.injEq, Prod.mk.injEq] at h
      obtain ⟨rfl, rfl⟩ := h
      exact ⟨ok.anc, fun _ => .inl hby⟩
    · rename_i hby
      split at h
      · simp only [Option.some.injEq, Prod.mk.injEq] at h
        obtain ⟨rfl, rfl⟩ := h
        exact ⟨ok.anc, by simp⟩
      · rename_i hbp
        obtain ⟨t, rfl⟩ : ∃ t, path = a :: t := by
          have := ok.head
          cases path with
          | nil => simp at this
          | cons c t => simp at this; exact ⟨t, by rw [this]⟩
        have hab : Adj G.Arrow a b := (ok.act.edge b a ⟨[], t, by simp⟩).symm
        have hgr : ∀ c z r z', sepsetPathFound G lat y af f b c (b :: a :: t) z = some (r, z') →
            Grow y (b :: a :: t) z z' := fun c z r z' h => spf_grow _ _ _ _ _ _ _ h
        have hany := anyPath_ok (E := G.Arrow) (x := x) (y := y) (b := b) (path := a :: t) hgr
          (fun c z r z' ok h => ih _ _ _ _ _ _ ok h)
        have hcalls : ∀ (z1 ps : List (Fin n)), (∀ v ∈ z1, AncOf G.Arrow {x, y} v) →
            ActiveSeq G.Arrow {v | v ∈ z1} (b :: a :: t) → G.passNodes a b z1 af = some ps →
            ∀ c ∈ ps, CallOk G.Arrow x y b c (b :: a :: t) z1 := by
          intro z1 ps hz1 hact hps c hc
          obtain ⟨h1, -, h3⟩ := (passNodes_spec hd hac hab hps c).1 hc
          exact ⟨hz1, rfl, by simpa using ok.last, activeSeq_cons.2 ⟨h1.symm, open_comm.1 h3, hact⟩⟩
        -- a call whose `z` contains `b` can only succeed at a collider `a → b ← y`
        have hcol : ∀ (z1 ps : List (Fin n)), b ∈ z1 → G.passNodes a b z1 af = some ps → (∃ c ∈ ps, SpHit G.Arrow x y b c) →
            G.Arrow a b ∧ G.Arrow y b := by
          rintro z1 ps hb hps ⟨c, hc, hh⟩
          obtain ⟨-, -, h3⟩ := (passNodes_spec hd hac hab hps c).1 hc
          have hcc : Collider G.Arrow a b c := by
            by_contra hcc
            exact h3.2 hcc hb
          rcases hh with rfl | ⟨hbc, -⟩
          · exact hcc
          · exact absurd hcc.2 (hac.asymm hbc)
        split at h
        · rename_i hbz
          simp [latentTest] at hbz
          obtain ⟨ps, hps, h⟩ := Option.bind_eq_some_iff.1 h
          obtain ⟨k1, k2⟩ := hany _ _ _ _ ok.anc (hcalls z ps ok.anc ok.act hps) h
          refine ⟨k1, fun hr => ?_⟩
          obtain ⟨q1, q2⟩ := hcol z ps hbz hps (k2 hr)
          exact .inr ⟨q1, q2, ok.anc b hbz⟩
        · rename_i hbz
          simp [latentTest] at hbz
          obtain ⟨ps, hps, h⟩ := Option.bind_eq_some_iff.1 h
          obtain ⟨⟨r1, z1⟩, hr1, h⟩ := Option.bind_eq_some_iff.1 h
          dsimp only at h
          have g1 := anyPath_grow hgr _ _ _ _ hr1
          obtain ⟨k1, k2⟩ := hany _ _ _ _ ok.anc (hcalls z ps ok.anc ok.act hps) hr1
          split at h
          · rename_i hrt
            have hbA : AncOf G.Arrow {x, y} b := by
              obtain ⟨c, hc, hh⟩ := k2 hrt
              obtain ⟨hbc, hca, ho⟩ := (passNodes_spec hd hac hab hps c).1 hc
              rcases hh with rfl | ⟨hbc, -, hcA⟩
              · rcases hbc with hbc | hbc
                · exact ⟨c, by simp, .single hbc⟩
                · rcases hab with hab | hba
                  · exact anc_trans ok.anc (ho.1 ⟨hab, hbc⟩)
                  · rcases forward_or_anc ok.act hba with h | h
                    · exact ⟨x, by simp, (h x (by simpa using ok.last)).to_reflTransGen⟩
                    · exact anc_trans ok.anc h
              · exact hcA.of_edge hbc
            have hz1b : ∀ v ∈ z1 ++ [b], AncOf G.Arrow {x, y} v := by
              intro v hv
              rcases List.mem_append.1 hv with hv | hv
              · exact k1 v hv
              · simp at hv; subst hv; exact hbA
            have hact : ActiveSeq G.Arrow {v | v ∈ z1 ++ [b]} (b :: a :: t) := by
              refine ok.act.mono_z (List.Subset.trans g1.sub.subset (by simp)) ?_
              intro v hv hv1
              simp only [List.tail_cons] at hv
              rcases List.mem_append.1 hv1 with h | h
              · exact (g1.new v h).resolve_right fun k => k.1 (List.mem_cons_of_mem _ hv)
              · simp at h; subst h; exact absurd hv hbp
            obtain ⟨ps2, hps2, h⟩ := Option.bind_eq_some_iff.1 h
            obtain ⟨⟨r2, z2⟩, hr2, h⟩ := Option.bind_eq_some_iff.1 h
            dsimp only at h
            obtain ⟨m1, m2⟩ := hany _ _ _ _ hz1b (hcalls _ ps2 hz1b hact hps2) hr2
            split at h
            · rename_i hr2t
              simp only [Option.some.injEq, Prod.mk.injEq] at h
              obtain ⟨rfl, rfl⟩ := h
              obtain ⟨q1, q2⟩ := hcol _ ps2 (by simp) hps2 (m2 hr2t)
              exact ⟨fun v hv => m1 v (List.mem_of_mem_erase hv), fun _ => .inr ⟨q1, q2, hbA⟩⟩
            · simp only [Option.some.injEq, Prod.mk.injEq] at h
              obtain ⟨rfl, rfl⟩ := h
              exact ⟨m1, by simp⟩
          · simp only [Option.some.injEq, Prod.mk.injEq] at h
            obtain ⟨rfl, rfl⟩ := h
            exact ⟨k1, by simp⟩

theorem sepsetLoop_ok {G : GG n} (hd : G.AllDirected) (hac : Acyclic G.Arrow) {lat : Fin n → Bool} {x y : Fin n}
    {af pf : Nat} : ∀ (f : Nat) (z0 : List (Fin n)) (o : Option (List (Fin n))), (∀ v ∈ z0, AncOf G.Arrow {x, y} v) →
      sepsetLoop G lat x y af pf f z0 = some o →
      (o = none → Adj G.Arrow x y) ∧ ∀ z, o = some z → ∀ v ∈ z, AncOf G.Arrow {x, y} v := by
  intro f
  induction f with
  | zero => intro z0 o _ h; simp [sepsetLoop] at h
  | succ f ih =>
    intro z0 o hz h
    rw [sepsetLoop] at h
    obtain ⟨⟨r, z1⟩, hr, h⟩ := Option.bind_eq_some_iff.1 h
    dsimp only at h
    obtain ⟨k1, k2⟩ := anyPath_ok (E := G.Arrow) (x := x) (y := y) (b := x) (path := [])
      (fun c z r z' h => spf_grow _ _ _ _ _ _ _ h) (fun c z r z' ok h => spf_ok hd hac _ _ _ _ _ _ _ ok h) _ _ _ _ hz
      (fun c hc => ⟨hz, rfl, rfl, .pair ((mem_adjacent hd).1 hc).symm⟩) hr
    split at h
    · rename_i hrt
      simp at h
      subst h
      refine ⟨fun _ => ?_, by simp⟩
      obtain ⟨c, hc, hh⟩ := k2 hrt
      rcases hh with rfl | ⟨h1, h2, w, hw, hp⟩
      · exact (mem_adjacent hd).1 hc
      · exfalso
        rcases hw with rfl | rfl
        · exact hac _ (TransGen.head' h1 hp)
        · exact hac _ (TransGen.head' h2 hp)
    · split at h
      · simp at h
        subst h
        exact ⟨by simp, fun z hz => by simp at hz; subst hz; exact k1⟩
      · exact ih z1 o k1 h

/-! ### Termination -/

theorem passNodes_total {G : GG n} {af : Nat} {z : List (Fin n)} (ha : ∀ node, G.isAncestorOfSet node z af ≠ none)
    (a b : Fin n) : ∃ ps, G.passNodes a b z af = some ps := by
  unfold passNodes
  generalize G.adjacentNodes b = cs
  induction cs with
  | nil => exact ⟨[], rfl⟩
  | cons c cs ih =>
    obtain ⟨ps, hps⟩ := ih
    rw [passLoop]
    split
    · exact ⟨ps, hps⟩
    · obtain ⟨r, hr⟩ : ∃ r, G.nodeReachable a b c z af = some r := by
        unfold nodeReachable
        split
        · exact ⟨_, rfl⟩
        · obtain ⟨q, hq⟩ := Option.ne_none_iff_exists'.1 (ha b)
          exact ⟨_, by rw [hq]; rfl⟩
      exact ⟨_, by rw [hr, hps]; rfl⟩

theorem anyPath_total {y : Fin n} {path : List (Fin n)} {f : Fin n → List (Fin n) → Option (Bool × List (Fin n))}
    (hg : ∀ c z r z', f c z = some (r, z') → Grow y path z z') (hf : ∀ c z, z.Nodup → ∃ r, f c z = some r) :
    ∀ (cs z : List (Fin n)), z.Nodup → ∃ r, anyPath f cs z = some r := by
  intro cs
  induction cs with
  | nil => intro z _; exact ⟨_, rfl⟩
  | cons c cs ih =>
    intro z hz
    obtain ⟨⟨r, z1⟩, hr⟩ := hf c z hz
    rw [anyPath, hr, Option.bind_some]
    split
    · exact ⟨_, rfl⟩
    · exact ih _ ((hg _ _ _ _ hr).nodup hz)

theorem spf_total {G : GG n} {lat : Fin n → Bool} {y : Fin n} {af : Nat}
    (ha : ∀ (node : Fin n) (z : List (Fin n)), z.Nodup → G.isAncestorOfSet node z af ≠ none) :
    ∀ (f : Nat) (a b : Fin n) (path z : List (Fin n)), path.Nodup → n < f + path.length → z.Nodup →
      ∃ r, sepsetPathFound G lat y af f a b path z = some r := by
  intro f
  induction f with
  | zero =>
    intro a b path z hp hlt _
    have := hp.length_le_card
    simp at this
    omega
  | succ f ih =>
    intro a b path z hp hlt hz
    rw [sepsetPathFound]
    split
    · exact ⟨_, rfl⟩
    · rename_i hby
      split
      · exact ⟨_, rfl⟩
      · rename_i hbp
        have hgr : ∀ c z r z', sepsetPathFound G lat y af f b c (b :: path) z = some (r, z') → Grow y (b :: path) z z' :=
          fun c z r z' h => spf_grow _ _ _ _ _ _ _ h
        have hany := anyPath_total hgr
          (fun c z hz => ih b c (b :: path) z (List.nodup_cons.2 ⟨hbp, hp⟩) (by simp; omega) hz)
        obtain ⟨ps, hps⟩ := passNodes_total (fun node => ha node z hz) a b
        obtain ⟨⟨r1, z1⟩, hr1⟩ := hany ps z hz
        split
        · exact ⟨_, by rw [hps, Option.bind_some, hr1]⟩
        · rename_i hbz
          simp [latentTest] at hbz
          rw [hps, Option.bind_some, hr1, Option.bind_some]
          have g1 := anyPath_grow hgr _ _ _ _ hr1
          split
          · have hz1 : (z1 ++ [b]).Nodup := by
              rw [List.nodup_append]
              refine ⟨g1.nodup hz, by simp, ?_⟩
              intro u hu c hc huc
              simp at hc
              subst hc huc
              exact (g1.new _ hu).elim hbz fun k => k.1 (by simp)
            obtain ⟨ps2, hps2⟩ := passNodes_total (fun node => ha node _ hz1) a b
            obtain ⟨⟨r2, z2⟩, hr2⟩ := hany ps2 _ hz1
            dsimp only
            rw [hps2, Option.bind_some, hr2, Option.bind_some]
            split
            · exact ⟨_, rfl⟩
            · exact ⟨_, rfl⟩
          · exact ⟨_, rfl⟩

theorem sepsetLoop_total {G : GG n} {lat : Fin n → Bool} {x y : Fin n} {af pf : Nat}
    (ha : ∀ (node : Fin n) (z : List (Fin n)), z.Nodup → G.isAncestorOfSet node z af ≠ none) (hpf : n ≤ pf) :
    ∀ (f : Nat) (z : List (Fin n)), z.Nodup → n < f + z.length → ∃ o, sepsetLoop G lat x y af pf f z = some o := by
  intro f
  induction f with
  | zero =>
    intro z hz hlt
    have := hz.length_le_card
    simp at this
    omega
  | succ f ih =>
    intro z hz hlt
    have hgr : ∀ c z r z', sepsetPathFound G lat y af pf x c [x] z = some (r, z') → Grow y [x] z z' :=
      fun c z r z' h => spf_grow _ _ _ _ _ _ _ h
    obtain ⟨⟨r, z1⟩, hr⟩ := anyPath_total hgr
      (fun c z hz => spf_total ha pf x c [x] z (by simp) (by simp; omega) hz) (G.adjacentNodes x) z hz
    have g := anyPath_grow hgr _ _ _ _ hr
    rw [sepsetLoop, hr, Option.bind_some]
    dsimp only
    split
    · exact ⟨_, rfl⟩
    · split
      · exact ⟨_, rfl⟩
      · rename_i hp
        refine ih z1 (g.nodup hz) ?_
        have hlen := g.sub.length_le
        have : z1.length ≠ z.length := fun e => hp (by
          rw [g.sub.eq_of_length e.symm]
          exact List.isPerm_iff.2 (.refl _))
        omega

/-! ### The property -/

/-- **C130.** On every DAG, for every pair of nodes, `get_sepset` terminates, and there is a bound on the work that does not
depend on the pair. It returns `None` exactly when the nodes are equal or adjacent. -/
theorem C130_sepset_none_iff (G : GG n) (hd : G.AllDirected) (hac : Acyclic G.Arrow) (lat : Fin n → Bool) :
    ∃ F, ∀ afuel pfuel fuel, F ≤ afuel → F ≤ pfuel → F ≤ fuel → ∀ x y,
      ∃ o, G.getSepset lat x y afuel pfuel fuel = some o ∧ (o = none ↔ x = y ∨ Adj G.Arrow x y) := by
  obtain ⟨F, hF⟩ := isAncestorOfSet_total hd.simple hac
  refine ⟨F + n + 1, fun af pf fl haf hpf hfl x y => ?_⟩
  have hva : ∀ x y, ∃ o, sepsetVisit G lat x y af pf fl = some o := by
    intro x y
    unfold sepsetVisit
    split
    · exact ⟨_, rfl⟩
    · exact sepsetLoop_total (hF af (by omega)) (by omega) fl [] (by simp) (by simp; omega)
  have hvn : ∀ x y o, sepsetVisit G lat x y af pf fl = some o → (o = none ↔ x = y ∨ Adj G.Arrow x y) := by
    intro x y o h
    unfold sepsetVisit at h
    split at h
    · rename_i e; simp at h; simp [← h, e]
    · rename_i e
      have := (sepsetLoop_ok hd hac fl [] o (by simp) h).1
      refine ⟨fun ho => .inr (this ho), fun ho => ?_⟩
      by_contra hne
      obtain ⟨z, rfl⟩ := Option.ne_none_iff_exists'.1 hne
      obtain ⟨-, -, -, hs⟩ := sepsetLoop_sound hd hac e fl [] z (by simp) (by simp) (by simp) h
      exact hs (dConn_of_adj e (ho.resolve_left e))
  obtain ⟨o, ho⟩ := hva x y
  unfold getSepset
  rw [ho, Option.bind_some]
  cases o with
  | some z => exact ⟨_, rfl, hvn x y _ ho⟩
  | none =>
    obtain ⟨o', ho'⟩ := hva y x
    refine ⟨o', ho', ?_⟩
    rw [hvn y x _ ho']
    refine or_congr eq_comm ⟨Adj.symm, Adj.symm⟩

/-- **C130.** Whenever `get_sepset` returns a list on a DAG, the list d-separates the two nodes, contains neither of them, has
no repetition, and consists of ancestors of the two nodes. -/
theorem C130_sepset_sound (G : GG n) (hd : G.AllDirected) (hac : Acyclic G.Arrow) (lat : Fin n → Bool) (x y : Fin n)
    (afuel pfuel fuel : Nat) (z : List (Fin n)) (h : G.getSepset lat x y afuel pfuel fuel = some (some z)) :
    x ∉ z ∧ y ∉ z ∧ z.Nodup ∧ DSep G.Arrow {v | v ∈ z} x y ∧ ∀ v ∈ z, TransGen G.Arrow v x ∨ TransGen G.Arrow v y := by
  have hv : ∀ x y, sepsetVisit G lat x y afuel pfuel fuel = some (some z) →
      x ∉ z ∧ y ∉ z ∧ z.Nodup ∧ DSep G.Arrow {v | v ∈ z} x y ∧ ∀ v ∈ z, TransGen G.Arrow v x ∨ TransGen G.Arrow v y := by
    intro x y h
    unfold sepsetVisit at h
    split at h
    · simp at h
    · rename_i e
      obtain ⟨h1, h2, h3, h4⟩ := sepsetLoop_sound hd hac e fuel [] z (by simp) (by simp) (by simp) h
      refine ⟨h1, h2, h3, h4, fun v hv => ?_⟩
      obtain ⟨w, hw, hp⟩ := (sepsetLoop_ok hd hac fuel [] _ (by simp) h).2 z rfl v hv
      rcases hw with rfl | rfl
      · exact .inl ((reflTransGen_iff_eq_or_transGen.1 hp).resolve_left fun e => h1 (e ▸ hv))
      · exact .inr ((reflTransGen_iff_eq_or_transGen.1 hp).resolve_left fun e => h2 (e ▸ hv))
  unfold getSepset at h
  obtain ⟨o, ho, h⟩ := Option.bind_eq_some_iff.1 h
  cases o with
  | some z' => simp at h; subst h; exact hv x y ho
  | none =>
    obtain ⟨h1, h2, h3, h4, h5⟩ := hv y x h
    exact ⟨h2, h1, h3, dSep_symm.1 h4, fun v hv => (h5 v hv).symm⟩

/-- `0 → 2 ← 1`, `2 → 3`, `0 → 4`, `4 → 3`. -/
def sepGraph : GG 5 := run [.addEdge 0 2 .tail .arrow, .addEdge 1 2 .tail .arrow, .addEdge 2 3 .tail .arrow,
  .addEdge 0 4 .tail .arrow, .addEdge 4 3 .tail .arrow]

example : sepGraph.AllDirected ∧ Acyclic sepGraph.Arrow ∧ sepGraph.getSepset (fun _ => false) 0 3 40 10 10 = some (some [2, 4]) := by
  refine ⟨by unfold GG.AllDirected; decide, ?_, by decide +kernel⟩
  have hlt : ∀ a b, sepGraph.Arrow a b → (![0, 1, 2, 4, 3] : Fin 5 → Nat) a < (![0, 1, 2, 4, 3] : Fin 5 → Nat) b := by decide
  exact Spec.acyclic_of_rank hlt

/-- **C131 violated.** `0 ← 1 → 2` with node 1 declared latent: `get_sepset` conditions on the latent node. -/
theorem C131_latent_violated : let G := run (n := 3) [.addEdge 1 0 .tail .arrow, .addEdge 1 2 .tail .arrow]
    G.getSepset (fun v => v == 1) 0 2 20 10 10 = some (some [1]) := by decide +kernel

/-- **C131 violated.** The node type never makes a difference to the answer. -/
theorem C131_type_ignored_violated (G : GG n) (lat lat' : Fin n → Bool) (x y : Fin n) (afuel pfuel fuel : Nat) :
    G.getSepset lat x y afuel pfuel fuel = G.getSepset lat' x y afuel pfuel fuel := by
  have h1 : ∀ f a b path z, sepsetPathFound G lat y afuel f a b path z = sepsetPathFound G lat' y afuel f a b path z := by
    intro f
    induction f with
    | zero => intros; rfl
    | succ f ih => intro a b path z; simp only [sepsetPathFound, latentTest, ih]; rfl
  have h1' : ∀ f a b path z, sepsetPathFound G lat x afuel f a b path z = sepsetPathFound G lat' x afuel f a b path z := by
    intro f
    induction f with
    | zero => intros; rfl
    | succ f ih => intro a b path z; simp only [sepsetPathFound, latentTest, ih]; rfl
  have h2 : ∀ f z, sepsetLoop G lat x y afuel pfuel f z = sepsetLoop G lat' x y afuel pfuel f z := by
    intro f
    induction f with
    | zero => intros; rfl
    | succ f ih => intro z; simp only [sepsetLoop, h1, ih]
  have h2' : ∀ f z, sepsetLoop G lat y x afuel pfuel f z = sepsetLoop G lat' y x afuel pfuel f z := by
    intro f
    induction f with
    | zero => intros; rfl
    | succ f ih => intro z; simp only [sepsetLoop, h1', ih]
  simp only [getSepset, sepsetVisit, h2, h2']

end CL
