import Verif.Proofs.FciTruth

/-!
# Rule R4 puts true marks (support for C69)
-/
namespace CL
open GG Spec
variable {n : Nat} {V : Type}
namespace Fci
variable {E : V → V → Prop} {o : Fin n → V} {Sel : Set V}

/-- The set `S` of observed variables d-separates `x` and `y`. -/
def SepBy (E : V → V → Prop) (o : Fin n → V) (Sel : Set V) (x y : Fin n) (S : Set (Fin n)) : Prop :=
  x ∉ S ∧ y ∉ S ∧ DSep E (o '' S ∪ Sel) (o x) (o y)

theorem SepBy.symm {x y : Fin n} {S : Set (Fin n)} (h : SepBy E o Sel x y S) : SepBy E o Sel y x S := ⟨h.2.1, h.1, dSep_symm.1 h.2.2⟩

/-- What the table says about a pair: each member is in a separating set, and all of some separating set is recorded. -/
def EntryOk (E : V → V → Prop) (o : Fin n → V) (Sel : Set V) (x y : Fin n) (T : List (Fin n)) : Prop :=
  (∀ z ∈ T, ∃ S, z ∈ S ∧ SepBy E o Sel x y S) ∧ ∃ S, (∀ z ∈ S, z ∈ T) ∧ SepBy E o Sel x y S

theorem EntryOk.symm {x y : Fin n} {T : List (Fin n)} (h : EntryOk E o Sel x y T) : EntryOk E o Sel y x T :=
  ⟨fun z hz => (h.1 z hz).imp fun _ q => ⟨q.1, q.2.symm⟩, h.2.imp fun _ q => ⟨q.1, q.2.symm⟩⟩

/-- The list `x, …, a, b` found by the search: every node but the last is a parent of `c` and every inner node is a collider. -/
inductive DPath (G : GG n) (a b c : Fin n) (prev : Fin n → Option (Fin n)) : List (Fin n) → Prop
  | base : prev a = some b → prev b = none → G.g a b ≠ .null → a ∈ G.parents c → DPath G a b c prev [a, b]
  | cons {d t p : Fin n} {l : List (Fin n)} : prev d = some t → d ∉ t :: p :: l → G.g t d = .arrow → G.g t p = .arrow → d ∈ G.parents c →
      DPath G a b c prev (t :: p :: l) → DPath G a b c prev (d :: t :: p :: l)

namespace DPath
variable {G : GG n} {a b c : Fin n} {prev prev' : Fin n → Option (Fin n)} {l : List (Fin n)}

theorem congr (h : DPath G a b c prev l) (he : ∀ x ∈ l, prev' x = prev x) : DPath G a b c prev' l := by
  induction h with
  | base h1 h2 h3 h4 => exact .base (by rw [he a (by simp)]; exact h1) (by rw [he b (by simp)]; exact h2) h3 h4
  | cons h1 h2 h3 h4 h5 _ ih => exact .cons (by rw [he _ (by simp)]; exact h1) h2 h3 h4 h5 (ih fun x hx => he x (List.mem_cons_of_mem _ hx))

theorem nodup (hG : G.Pag) (h : DPath G a b c prev l) : l.Nodup := by
  induction h with
  | base _ _ h3 _ => simp [ne_of_adj hG h3]
  | cons _ h2 _ _ _ _ ih => exact List.nodup_cons.2 ⟨h2, ih⟩

theorem ends (h : DPath G a b c prev l) : ∃ p, l = p ++ [a, b] := by
  induction h with
  | base => exact ⟨[], rfl⟩
  | cons _ _ _ _ _ _ ih => obtain ⟨p, e⟩ := ih; exact ⟨_ :: p, by rw [e]; rfl⟩

theorem headPrev (h : DPath G a b c prev l) : ∀ t p r, l = t :: p :: r → prev t = some p := by
  intro t p r e
  cases h with
  | base h1 => cases e; exact h1
  | cons h1 => cases e; exact h1

theorem two (h : DPath G a b c prev l) : ∃ t p r, l = t :: p :: r := by
  cases h with
  | base => exact ⟨_, _, _, rfl⟩
  | cons => exact ⟨_, _, _, rfl⟩

theorem getPath (h : DPath G a b c prev l) : ∀ t r, l = t :: r → ∀ f, r.length < f → Fci.getPath prev f t = r := by
  induction h with
  | base h1 h2 =>
    intro t r e f hf
    cases e
    match f, hf with
    | f + 2, _ => simp [Fci.getPath, h1, h2]
  | cons h1 _ _ _ _ _ ih =>
    intro t r e f hf
    cases e
    cases f with
    | zero => simp at hf
    | succ f =>
      simp only [Fci.getPath, h1, Option.elim_some]
      rw [ih _ _ rfl f (by simp at hf ⊢; omega)]

theorem parents (h : DPath G a b c prev l) : ∀ x y, [x, y] <:+: l → x ∈ G.parents c ∧ (G.Pag → G.g x y ≠ .null) := by
  induction h with
  | base _ _ h3 h4 =>
    intro x y hi
    have := hi.eq_of_length (by simp)
    simp at this
    rw [this.1, this.2]; exact ⟨h4, fun _ => h3⟩
  | cons _ _ h3 _ h5 _ ih =>
    intro x y hi
    rcases List.infix_cons_iff.1 hi with hp | hi
    · obtain ⟨t, ht⟩ := hp
      simp at ht
      rw [ht.1, ht.2.1]; exact ⟨h5, fun hP => adj_symm hP (by simp [h3])⟩
    · exact ih x y hi

theorem colliders (h : DPath G a b c prev l) : ∀ x y z, [x, y, z] <:+: l → G.g y x = .arrow ∧ G.g y z = .arrow := by
  induction h with
  | base =>
    intro x y z hi
    have := hi.length_le
    simp at this
  | cons _ _ h3 h4 _ _ ih =>
    intro x y z hi
    rcases List.infix_cons_iff.1 hi with hp | hi
    · obtain ⟨t, ht⟩ := hp
      simp at ht
      rw [ht.1, ht.2.1, ht.2.2.1]; exact ⟨h3, h4⟩
    · exact ih x y z hi

end DPath

section
variable (hac : Acyclic E) (ho : Function.Injective o) (hs : ∀ i, o i ∉ Sel)
include hac ho hs

/-- What the graph knows about a discriminating path. -/
theorem dpath_truth {G : GG n} (h : Right E o Sel G) {a b c d t p : Fin n} {r : List (Fin n)} {prev : Fin n → Option (Fin n)}
    (hp : DPath G a b c prev (t :: p :: r)) (htd : G.g t d = .arrow) (htp : G.g t p = .arrow) (hbc : G.g b c ≠ .null)
    {S : Set (Fin n)} (hS : SepBy E o Sel d c S) :
    (b ∈ S → Ca E o Sel b c) ∧ (b ∉ S → ¬ Ca E o Sel b a ∧ ¬ Ca E o Sel b c) := by
  obtain ⟨q, hq⟩ := hp.ends
  have hpar : ∀ x, x ∈ G.parents c → Ca E o Sel x c ∧ G.g x c ≠ .null := fun x hx =>
    ⟨h.tail c x ((mem_parents h.pag).1 hx).2, by rw [((mem_parents h.pag).1 hx).2]; simp⟩
  have hmem : ∀ x ∈ t :: p :: r, x = b ∨ x ∈ G.parents c := by
    intro x hx
    rw [hq] at hx
    simp only [List.mem_append, List.mem_cons, List.not_mem_nil, or_false] at hx
    rcases hx with hx | rfl | rfl
    · right
      obtain ⟨s, u, rfl⟩ := List.append_of_mem hx
      rcases u with _ | ⟨v, u⟩
      · exact (hp.parents x a ⟨s, [b], by rw [hq]; simp⟩).1
      · exact (hp.parents x v ⟨s, u ++ [a, b], by rw [hq]; simp⟩).1
    · right
      exact (hp.parents _ b ⟨q, [], by rw [hq]; simp⟩).1
    · exact Or.inl rfl
  refine discriminating hac ho hs hq (fun x hx => ?_) hS.2.2 (ne_of_adj h.pag (by rw [htd]; simp)).symm
    (h.ins d t (adj_symm h.pag (by rw [htd]; simp))) (h.arrow d t htd) (fun x y hxy => ?_) (fun x y z hxyz => ?_) (h.ins b c hbc)
  · rcases hmem x hx with rfl | hx
    · exact ne_of_adj h.pag hbc
    · exact ne_of_adj h.pag (hpar x hx).2
  · obtain ⟨h1, h2⟩ := hp.parents x y hxy
    have h2 := h2 h.pag
    refine ⟨ne_of_adj h.pag h2, h.ins x y h2, h.ins x c (hpar x h1).2, (hpar x h1).1, h.arrow y x ?_⟩
    obtain ⟨s, u, hsu⟩ := hxy
    rcases List.eq_nil_or_concat s with rfl | ⟨s', w, rfl⟩
    · simp at hsu
      obtain ⟨rfl, rfl, -⟩ := hsu
      exact htp
    · exact (hp.colliders w x y ⟨s', u, by rw [← hsu]; simp⟩).2
  · exact h.arrow x y (hp.colliders x y z hxyz).1

/-- The CI test answers d-separation. -/
def OracleFor (E : V → V → Prop) (o : Fin n → V) (Sel : Set V) (ind : CI n) : Prop :=
  ∀ x y (S : List (Fin n)), x ≠ y → x ∉ S → y ∉ S → (ind x y S = true ↔ DSep E (o '' {v | v ∈ S} ∪ Sel) (o x) (o y))

theorem doDdp_right {env : FciEnv n} (hO : OracleFor E o Sel env.ind) {ss : SSet n}
    (hss : ∀ x y T, x ≠ y → ss x y = some T → EntryOk E o Sel x y T) {G G' : GG n} (h : Right E o Sel G)
    {a b c d t p : Fin n} {r : List (Fin n)} {prev : Fin n → Option (Fin n)} (hp : DPath G a b c prev (t :: p :: r))
    (htd : G.g t d = .arrow) (htp : G.g t p = .arrow) (hd : d ∉ t :: p :: r) (hdc : d ≠ c) (hbc : G.g b c ≠ .null) (hcb : G.g c b ≠ .circle)
    (he : doDdp env ss G d a b c (t :: p :: r) = some G') : Right E o Sel G' := by
  have hk := (doDdp_keep h.pag hbc hcb he).1
  have hcb' := adj_symm h.pag hbc
  have key := fun S => dpath_truth hac ho hs h hp htd htp hbc (S := S)
  obtain ⟨q, hq⟩ := hp.ends
  have hnd := hp.nodup h.pag
  have hc : c ∉ t :: p :: r := by
    intro hm
    rw [hq] at hm
    simp only [List.mem_append, List.mem_cons, List.not_mem_nil, or_false] at hm
    have hcc : c ∉ G.parents c := fun hx => by
      have := (mem_parents h.pag).1 hx
      rw [h.pag.diag c] at this; simp at this
    rcases hm with hx | rfl | rfl
    · obtain ⟨s, u, rfl⟩ := List.append_of_mem hx
      rcases u with _ | ⟨v, u⟩
      · exact hcc (hp.parents c a ⟨s, [b], by rw [hq]; simp⟩).1
      · exact hcc (hp.parents c v ⟨s, u ++ [a, b], by rw [hq]; simp⟩).1
    · exact hcc (hp.parents _ b ⟨q, [], by rw [hq]; simp⟩).1
    · exact hbc (h.pag.diag c)
  have hb : b ∈ t :: p :: r := by rw [hq]; simp
  have i1 : env.ind d c (t :: p :: r) = true → Ca E o Sel b c := fun hi =>
    (key {v | v ∈ t :: p :: r} ⟨hd, hc, (hO d c _ hdc hd hc).1 hi⟩).1 hb
  have hd2 : d ∉ (t :: p :: r).erase b := fun hm => hd (List.mem_of_mem_erase hm)
  have hc2 : c ∉ (t :: p :: r).erase b := fun hm => hc (List.mem_of_mem_erase hm)
  have i2 : env.ind d c ((t :: p :: r).erase b) = true → ¬ Ca E o Sel b a ∧ ¬ Ca E o Sel b c := fun hi =>
    (key {v | v ∈ (t :: p :: r).erase b} ⟨hd2, hc2, (hO d c _ hdc hd2 hc2).1 hi⟩).2 (by simpa using hnd.not_mem_erase)
  unfold doDdp at he
  dsimp only at he
  revert he
  generalize hv : (if (!env.ind d c (t :: p :: r) && !env.ind d c ((t :: p :: r).erase b)) = true then Option.map (fun S => decide (b ∈ S)) (ss d c)
    else some (env.ind d c (t :: p :: r))) = v
  intro he
  have hvt : v = some true → Ca E o Sel b c := by
    rintro rfl
    split at hv
    · simp only [Option.map_eq_some_iff, decide_eq_true_eq] at hv
      obtain ⟨T, hT, hbT⟩ := hv
      obtain ⟨S, hbS, hS⟩ := (hss d c T hdc hT).1 b hbT
      exact (key S hS).1 hbS
    · simp only [Option.some.injEq] at hv
      exact i1 hv
  have hvf : v = some false → ¬ Ca E o Sel b a ∧ ¬ Ca E o Sel b c := by
    rintro rfl
    split at hv
    · simp only [Option.map_eq_some_iff, decide_eq_false_iff_not] at hv
      obtain ⟨T, hT, hbT⟩ := hv
      obtain ⟨S, hST, hS⟩ := (hss d c T hdc hT).2
      exact (key S hS).2 fun hx => hbT (hST b hx)
    · rename_i hn
      simp only [Option.some.injEq] at hv
      simp only [hv, Bool.not_false, Bool.true_and, Bool.not_eq_true', Bool.not_eq_false] at hn
      exact i2 hn
  cases v with
  | none => simp at he
  | some v =>
    simp only [Option.elim_some] at he
    split at he
    · rename_i hvv
      simp only [Option.some.injEq] at he
      subst he
      exact h.set2 hk (reorKeep_g h.pag hcb' (m := .tail) (by simp) (fun hx => hcb hx.1)) (Or.inl rfl)
        (Or.inr (Or.inr ⟨rfl, hvt (by rw [hvv])⟩))
    · split at he
      · simp at he
      · rename_i hvv hal
        simp only [Bool.or_eq_true, Bool.not_eq_true', not_or, Bool.not_eq_false] at hal
        simp only [Option.some.injEq] at he
        subst he
        obtain ⟨n1, n2⟩ := hvf (by simp only [Bool.not_eq_true] at hvv; rw [hvv])
        obtain ⟨r1, -, e1⟩ := reorKeep_arrow h.pag (allowed_marks h.pag hal.1)
        have R1 : Right E o Sel (reorKeep G a b .arrow) := h.set2 r1.keep e1 (Or.inl rfl) (Or.inr (Or.inl ⟨rfl, n1⟩))
        have hb2 : (reorKeep G a b .arrow).g b c = .arrow ∨ (reorKeep G a b .arrow).g b c = .circle := by
          have := allowed_marks h.pag hal.2
          have := r1.step b c
          rw [e1] at *
          unfold set2 at *
          grind
        obtain ⟨r2, -, e2⟩ := reorKeep_arrow (r1.pag h.pag) hb2
        exact R1.set2 r2.keep e2 (Or.inl rfl) (Or.inr (Or.inl ⟨rfl, n2⟩))

/-- The state of the search of R4. -/
structure DInv (G : GG n) (a b c : Fin n) (st : DdpSt n) : Prop where
  path : ∀ v ∈ st.V, v ≠ b → ∃ l, DPath G a b c st.prev (v :: l) ∧ ∀ x ∈ v :: l, x ∈ st.V
  queue : ∀ v ∈ st.Q, v ∈ st.V ∧ v ≠ b
  hb : b ∈ st.V

omit hac ho hs in
theorem DInv.setPrev {G : GG n} {a b c : Fin n} {st : DdpSt n} (h : DInv G a b c st) {d t : Fin n} (hd : d ∉ st.V) :
    DInv G a b c (st.setPrev d t) := by
  refine ⟨fun v hv hvb => ?_, h.queue, h.hb⟩
  obtain ⟨l, h1, h2⟩ := h.path v hv hvb
  refine ⟨l, h1.congr fun x hx => ?_, h2⟩
  have : x ≠ d := fun e => hd (e ▸ h2 x hx)
  simp [DdpSt.setPrev, this]

theorem ddpInner_right {env : FciEnv n} (hO : OracleFor E o Sel env.ind) {ss : SSet n}
    (hss : ∀ x y T, x ≠ y → ss x y = some T → EntryOk E o Sel x y T) {G : GG n} (h : Right E o Sel G) {a b c t : Fin n}
    (hbc : G.g b c ≠ .null) (hcb : G.g c b ≠ .circle) : ∀ (ds : List (Fin n)) (st : DdpSt n), (∀ d ∈ ds, G.g t d = .arrow) →
    DInv G a b c st → t ∈ st.V → t ≠ b →
    (∀ G', ddpInner env ss G a b c t (G.parents c) ds st = .inl G' → Right E o Sel G') ∧
    (∀ st', ddpInner env ss G a b c t (G.parents c) ds st = .inr st' → DInv G a b c st')
  | [], st, _, hi, _, _ => by
    simp only [ddpInner, reduceCtorEq, false_implies, implies_true, Sum.inr.injEq, true_and]
    rintro st' rfl
    exact hi
  | d :: ds, st, hds, hi, ht, htb => by
    have hds' := fun x hx => hds x (List.mem_cons_of_mem d hx)
    unfold ddpInner
    split
    · exact ddpInner_right hO hss h hbc hcb ds st hds' hi ht htb
    · rename_i hdV
      have hi' := hi.setPrev (t := t) hdV
      split
      · exact ddpInner_right hO hss h hbc hcb ds _ hds' hi' ht htb
      · rename_i hcol
        obtain ⟨l, hl, hlV⟩ := hi'.path t ht htb
        obtain ⟨t', p, r, el⟩ := hl.two
        obtain ⟨rfl, rfl⟩ : t = t' ∧ l = p :: r := by simpa using el
        have htp := hl.headPrev t p r rfl
        simp only [htp, Option.elim_some, Bool.not_eq_true', Bool.not_eq_false, collider_iff h.pag] at hcol
        have hdl : d ∉ t :: p :: r := fun hm => hdV (hlV d hm)
        have hnd := hl.nodup h.pag
        have hlen : (t :: p :: r).length ≤ n := by
          have := hnd.length_le_card
          simpa using this
        have hgp : getPath (st.setPrev d t).prev (n + 1) d = t :: p :: r := by
          have e1 : (st.setPrev d t).prev d = some t := by simp [DdpSt.setPrev]
          simp only [getPath, e1, Option.elim_some]
          rw [hl.getPath t (p :: r) rfl n (by simp at hlen ⊢; omega)]
        split
        · rename_i G'' htry
          refine ⟨fun G' e => ?_, fun st' e => by simp at e⟩
          simp only [Sum.inl.injEq] at e
          subst e
          unfold ddpTry at htry
          split at htry
          · rename_i hcond
            simp only [Bool.and_eq_true, decide_eq_true_eq] at hcond
            rw [hgp] at htry
            exact doDdp_right hac ho hs hO hss h hl hcol.1 hcol.2 hdl hcond.2 hbc hcb htry
          · simp at htry
        · have hpush : DInv G a b c ((st.setPrev d t).push (G.parents c) d) := by
            unfold DdpSt.push
            split
            · rename_i hpar
              refine ⟨fun v hv hvb => ?_, fun v hv => ?_, List.mem_cons_of_mem _ hi'.hb⟩
              · rcases List.mem_cons.1 hv with rfl | hv
                · refine ⟨t :: p :: r, .cons (by simp [DdpSt.setPrev]) hdl hcol.1 hcol.2 hpar hl, fun x hx => ?_⟩
                  rcases List.mem_cons.1 hx with rfl | hx
                  · exact List.mem_cons_self ..
                  · exact List.mem_cons_of_mem _ (hlV x hx)
                · obtain ⟨l', h1, h2⟩ := hi'.path v hv hvb
                  exact ⟨l', h1, fun x hx => List.mem_cons_of_mem _ (h2 x hx)⟩
              · simp only [List.mem_append, List.mem_singleton] at hv
                rcases hv with hv | rfl
                · exact ⟨List.mem_cons_of_mem _ (hi'.queue v hv).1, (hi'.queue v hv).2⟩
                · refine ⟨List.mem_cons_self .., fun e => hdV ?_⟩
                  rw [e]; exact hi.hb
            · exact hi'
          refine ddpInner_right hO hss h hbc hcb ds _ hds' hpush ?_ htb
          unfold DdpSt.push
          split
          · exact List.mem_cons_of_mem _ ht
          · exact ht

theorem ddpLoop_right {env : FciEnv n} (hO : OracleFor E o Sel env.ind) {ss : SSet n}
    (hss : ∀ x y T, x ≠ y → ss x y = some T → EntryOk E o Sel x y T) {G : GG n} (h : Right E o Sel G) {a b c : Fin n}
    (hbc : G.g b c ≠ .null) (hcb : G.g c b ≠ .circle) : ∀ (f : Nat) (st : DdpSt n), DInv G a b c st →
    ∀ G', ddpLoop env ss G a b c (G.parents c) f st = some G' → Right E o Sel G'
  | 0, _, _, G', e => by simp [ddpLoop] at e
  | f + 1, st, hi, G', e => by
    unfold ddpLoop at e
    split at e
    · simp at e
    · rename_i t Q hQ
      split at e
      · simp at e
      · have htq := hi.queue t (by rw [hQ]; simp)
        have hi2 : DInv G a b c (st.take t Q) := by
          unfold DdpSt.take
          split
          · exact ⟨hi.path, fun v hv => hi.queue v (by rw [hQ]; exact List.mem_cons_of_mem _ hv), hi.hb⟩
          · exact ⟨hi.path, fun v hv => hi.queue v (by rw [hQ]; exact List.mem_cons_of_mem _ hv), hi.hb⟩
        have hV : (st.take t Q).V = st.V := by unfold DdpSt.take; split <;> rfl
        obtain ⟨k1, k2⟩ := ddpInner_right hac ho hs hO hss h hbc hcb (a := a) (t := t) (G.nodesInto t .arrow) (st.take t Q)
          (fun d hd => (mem_nodesInto h.pag (by simp)).1 hd) hi2 (by rw [hV]; exact htq.1) htq.2
        split at e
        · rename_i G'' hin
          simp only [Option.some.injEq] at e
          subst e
          exact k1 _ hin
        · rename_i st2 hin
          exact ddpLoop_right hO hss h hbc hcb f st2 (k2 _ hin) G' e

theorem r4_right {env : FciEnv n} (hO : OracleFor E o Sel env.ind) {ss : SSet n}
    (hss : ∀ x y T, x ≠ y → ss x y = some T → EntryOk E o Sel x y T) {st : GG n × Bool} (h : Right E o Sel st.1) :
    Right E o Sel (r4 env ss st).1 := by
  unfold r4
  refine foldl_inv (fun st : GG n × Bool => Right E o Sel st.1) _ _ (fun u hu b _ => ?_) _ h
  unfold r4Node
  dsimp only
  refine (foldl_inv (fun v : GG n × Bool => Right E o Sel v.1 ∧ StepK u v) _ _ (fun v hv a ha => ?_) _ ⟨hu, StepK.rfl⟩).1
  have ha' := (mem_nodesOutOf hu.pag (by simp)).1 ha
  refine foldl_inv (fun v : GG n × Bool => Right E o Sel v.1 ∧ StepK u v) _ _ (fun w hw c hc => ?_) _ hv
  have hc' := (mem_nodesInto hu.pag (by simp)).1 hc
  refine ⟨?_, r4Step_keep hu.pag hw.2 hc'⟩
  · unfold r4Step
    split
    · exact hw.1
    · rename_i hpar
      simp only [Bool.not_eq_true', Bool.not_eq_false, isParentOf_iff hw.1.pag] at hpar
      split
      · exact hw.1
      · rename_i hcb
        simp only [Bool.not_eq_true', Bool.not_eq_false, ep_iff hw.1.pag] at hcb
        unfold ddpOrient
        generalize hl : ddpLoop env ss w.1 a b c _ _ _ = r
        cases r with
        | none => exact hw.1
        | some G' =>
          refine ddpLoop_right hac ho hs hO hss hw.1 (hw.2.keep.ne_null (by simp [hc'])) (by simp [hcb.2]) _ _ ?_ G' hl
          have hab : w.1.g a b ≠ .null := hw.2.keep.ne_null (by simp [ha'])
          have hne := ne_of_adj hw.1.pag hab
          refine ⟨fun x hx hxb => ?_, fun x hx => ?_, by simp⟩
          · simp only [List.mem_cons, List.not_mem_nil, or_false] at hx
            rcases hx with rfl | rfl
            · exact absurd rfl hxb
            · refine ⟨[b], .base (by simp) (by simp [hne.symm]) hab ((mem_parents hw.1.pag).2 hpar), fun y hy => ?_⟩
              simp only [List.mem_cons, List.not_mem_nil, or_false] at hy ⊢
              tauto
          · simp only [List.mem_cons, List.not_mem_nil, or_false] at hx
            subst hx
            exact ⟨by simp, hne⟩

end
end Fci
end CL
