import Verif.Props.FciSound

/-!
# C66, C69: exactly which tails R9 and R10 put
-/
namespace CL
open GG Fci
variable {n : Nat}

/-- `b` is a neighbour of `a` other than `c`, without an arrowhead at `a`. -/
def GG.PossibleChild (G : GG n) (a c b : Fin n) : Prop := b ≠ a ∧ b ≠ c ∧ G.isAdj a b = true ∧ G.getEndpoint b a ≠ some .arrow

/-- What R9 looks for, for `a o→ c`: a possible child of `a` that is not adjacent to `c` and from which some semi-directed walk leads to `c`. -/
def GG.CodedR9 (G : GG n) (a c : Fin n) : Prop :=
  ∃ b, G.PossibleChild a c b ∧ G.isAdj b c = false ∧ ∃ l, G.SemiWalk b c l

/-- What R10 looks for, for `a o→ c`: two non-adjacent possible children `u`, `v` of `a`, and `b *→ c`, `d *→ c`, with semi-directed walks from
`u` to `b` and from `v` to `d`. -/
def GG.CodedR10 (G : GG n) (a c b d : Fin n) : Prop :=
  b ≠ d ∧ G.getEndpoint b c = some .arrow ∧ G.getEndpoint d c = some .arrow ∧
  ∃ u v, u ≠ v ∧ G.PossibleChild a c u ∧ G.PossibleChild a c v ∧ G.isAdj u v = false ∧ (∃ l, G.SemiWalk u b l) ∧ ∃ l, G.SemiWalk v d l

namespace Fci

/-- same adjacencies and arrowheads -/
structure SameArrows (G H : GG n) : Prop where
  null : ∀ a b, H.g a b = .null ↔ G.g a b = .null
  arrow : ∀ a b, H.g a b = .arrow ↔ G.g a b = .arrow

theorem TStep.same {s t : GG n × Bool} (h : TStep s t) : SameArrows s.1 t.1 :=
  ⟨h.ref.keep.null, fun a b => ⟨h.tails a b, fun q => by have := h.ref.step a b; grind⟩⟩

theorem SameArrows.adj {G H : GG n} (h : SameArrows G H) (hG : G.Pag) (hH : H.Pag) (a b : Fin n) : H.isAdj a b = G.isAdj a b := by
  rw [Bool.eq_iff_iff, isAdj_iff hG, isAdj_iff hH, ne_eq, ne_eq, h.null]

theorem SameArrows.ep {G H : GG n} (h : SameArrows G H) (hG : G.Pag) (hH : H.Pag) (a b : Fin n) :
    H.getEndpoint a b = some .arrow ↔ G.getEndpoint a b = some .arrow := by
  rw [getEndpoint_iff hG, getEndpoint_iff hH, h.arrow]

theorem SameArrows.walk {G H : GG n} (h : SameArrows G H) (hG : G.Pag) (hH : H.Pag) (a b : Fin n) (l : List (Fin n)) :
    H.SemiWalk a b l ↔ G.SemiWalk a b l := by
  unfold GG.SemiWalk
  simp only [h.adj hG hH, h.ep hG hH, ne_eq]

theorem SameArrows.child {G H : GG n} (h : SameArrows G H) (hG : G.Pag) (hH : H.Pag) (a c b : Fin n) :
    H.PossibleChild a c b ↔ G.PossibleChild a c b := by
  unfold GG.PossibleChild
  simp only [h.adj hG hH, h.ep hG hH, ne_eq]

theorem SameArrows.r9 {G H : GG n} (h : SameArrows G H) (hG : G.Pag) (hH : H.Pag) (a c : Fin n) : H.CodedR9 a c ↔ G.CodedR9 a c := by
  unfold GG.CodedR9
  simp only [h.adj hG hH, h.child hG hH, h.walk hG hH]

theorem SameArrows.r10 {G H : GG n} (h : SameArrows G H) (hG : G.Pag) (hH : H.Pag) (a c b d : Fin n) : H.CodedR10 a c b d ↔ G.CodedR10 a c b d := by
  unfold GG.CodedR10
  simp only [h.adj hG hH, h.child hG hH, h.walk hG hH, h.ep hG hH]

theorem mem_possibleChildren {env : FciEnv n} (he : env.Ok) {G : GG n} (h : G.Pag) {a c b : Fin n} :
    b ∈ possibleChildren env G a ((G.adjacentNodes a).filter fun u => u ≠ a ∧ u ≠ c) ↔ G.PossibleChild a c b := by
  unfold possibleChildren isPossibleParent GG.PossibleChild
  rw [(he.setOrder _).mem_iff]
  simp only [List.mem_filter, mem_adjacentNodes h, decide_eq_true_eq, Bool.and_eq_true, Bool.not_eq_true', isAdj_iff h, ne_eq]
  rw [← Bool.not_eq_true, ep_iff h, getEndpoint_iff h]
  have h1 : G.g b a = .null ↔ G.g a b = .null := h.symm b a
  rw [h1]
  constructor
  · rintro ⟨⟨q1, q2, q3⟩, ⟨q4, q5⟩, q6⟩; exact ⟨q2, q3, q5, q6⟩
  · rintro ⟨q2, q3, q5, q6⟩; exact ⟨⟨q5, q2, q3⟩, ⟨fun e => q2 e.symm, q5⟩, q6⟩

theorem r9Step_cond {env : FciEnv n} (he : env.Ok) {G : GG n} (h : G.Pag) (a c : Fin n) :
    (possibleChildren env G a ((G.adjacentNodes a).filter fun u => u ≠ a ∧ u ≠ c)).any (fun b => !G.isAdj b c && existsSemi G b c) = true ↔
    G.CodedR9 a c := by
  simp only [List.any_eq_true, mem_possibleChildren he h, Bool.and_eq_true, Bool.not_eq_true', C30_semi_directed_exact h]
  rfl

/-! ### R9 -/

/-- `u` is reached from `s`, only tails appeared, and each of them stands where R9 has its reason in the start graph. -/
structure R9Inv (s u : GG n × Bool) : Prop extends TStep s u where
  why : ∀ a c, u.1.g a c ≠ s.1.g a c → s.1.g c a = .arrow ∧ s.1.CodedR9 a c

theorem r9Step_inv {env : FciEnv n} (he : env.Ok) {s u : GG n × Bool} (hs : s.1.Pag) (h : R9Inv s u) {a c : Fin n} (hac : u.1.g c a = .arrow) :
    R9Inv s (r9Step env c u a) := by
  have hp := h.ref.pag hs
  have hst := r9Step_step (env := env) hp hac
  refine ⟨h.toTStep.trans hst, ?_⟩
  unfold r9Step
  split
  · exact h.why
  · dsimp only
    rename_i hc
    simp only [Bool.not_eq_true', Bool.not_eq_false, ep_iff hp] at hc
    split
    · rename_i hk
      have hr := (h.toTStep.same.r9 hs hp a c).1 ((r9Step_cond he hp a c).1 hk)
      have hca : s.1.g c a = .arrow := h.tails _ _ hac
      intro x y hxy
      have hne : u.1.g a c ≠ .null := by simp [hc.2]
      have e := reor_g hp hne (m1 := .tail) (m2 := .arrow) (by simp) (by simp) (by simp)
      simp only [e] at hxy
      by_cases h1 : x = a ∧ y = c
      · obtain ⟨rfl, rfl⟩ := h1; exact ⟨hca, hr⟩
      · refine h.why x y ?_
        unfold set2 at hxy
        grind
    · exact h.why

theorem R9Inv.rfl {s : GG n × Bool} : R9Inv s s := ⟨TStep.rfl, fun _ _ h => absurd (Eq.refl _) h⟩

theorem r9_inv {env : FciEnv n} (he : env.Ok) {s : GG n × Bool} (hs : s.1.Pag) : R9Inv s (r9 env s) := by
  unfold r9
  refine foldl_inv (R9Inv s) _ _ (fun u hu c _ => ?_) _ R9Inv.rfl
  have hp := hu.ref.pag hs
  refine (foldl_inv (fun v => R9Inv s v ∧ TStep u v) _ _ (fun v hv a ha => ?_) _ ⟨hu, TStep.rfl⟩).1
  have h1 := (mem_nodesInto hp (by simp)).1 ha
  have h2 := (hv.2.same.arrow c a).2 h1
  exact ⟨r9Step_inv he hs hv.1 h2, hv.2.trans (r9Step_step (hv.1.ref.pag hs) h2)⟩

theorem TStep.tail {s t : GG n × Bool} (h : TStep s t) {a b : Fin n} (ht : s.1.g a b = .tail) : t.1.g a b = .tail := by
  have := h.ref.step a b; grind

theorem r9_complete {env : FciEnv n} (he : env.Ok) {s : GG n × Bool} (hs : s.1.Pag) {a c : Fin n} (h1 : s.1.g a c = .circle)
    (h2 : s.1.g c a = .arrow) (h3 : s.1.CodedR9 a c) : (r9 env s).1.g a c = .tail := by
  unfold r9
  obtain ⟨l1, l2, hl⟩ := List.append_of_mem (List.mem_finRange c)
  rw [hl, List.foldl_append, List.foldl_cons]
  have inner : ∀ (u : GG n × Bool) (c : Fin n), u.1.Pag → TStep u ((u.1.nodesInto c .arrow).foldl (r9Step env c) u) := by
    intro u c hp
    refine TStep.rfl.fold _ _ hp fun v hv hq a ha => hv.trans (r9Step_step hq ?_)
    exact (hv.same.arrow c a).2 ((mem_nodesInto hp (by simp)).1 ha)
  have hu : TStep s (l1.foldl (fun st c => (st.1.nodesInto c .arrow).foldl (r9Step env c) st) s) :=
    TStep.rfl.fold _ _ hs fun v hv hq c _ => hv.trans (inner v c hq)
  generalize l1.foldl (fun st c => (st.1.nodesInto c .arrow).foldl (r9Step env c) st) s = u at hu ⊢
  have hp := hu.ref.pag hs
  have hi := inner u c hp
  have hm : a ∈ u.1.nodesInto c .arrow := (mem_nodesInto hp (by simp)).2 ((hu.same.arrow c a).2 h2)
  have hrest := TStep.rfl.fold (s := (u.1.nodesInto c .arrow).foldl (r9Step env c) u)
    (fun st c => (st.1.nodesInto c .arrow).foldl (r9Step env c) st) l2 (hi.ref.pag hp) fun v hv hq c _ => hv.trans (inner v c hq)
  refine hrest.tail ?_
  obtain ⟨k1, k2, hk⟩ := List.append_of_mem hm
  have hsub : ∀ x ∈ u.1.nodesInto c .arrow, u.1.g c x = .arrow := fun x hx => (mem_nodesInto hp (by simp)).1 hx
  rw [hk] at hsub ⊢
  rw [List.foldl_append, List.foldl_cons]
  have hv : TStep u (k1.foldl (r9Step env c) u) :=
    TStep.rfl.fold _ _ hp fun v hv hq x hx => hv.trans (r9Step_step hq ((hv.same.arrow c x).2 (hsub x (by simp [hx]))))
  generalize k1.foldl (r9Step env c) u = v at hv ⊢
  have hq := hv.ref.pag hp
  have hva : v.1.g c a = .arrow := (hv.same.arrow c a).2 ((hu.same.arrow c a).2 h2)
  have hw := r9Step_step (env := env) hq hva
  have hkr := TStep.rfl.fold (s := r9Step env c v a) (r9Step env c) k2 (hw.ref.pag hq)
    fun w hw' hqw x hx => hw'.trans (r9Step_step hqw (((hv.trans hw).trans hw').same.arrow c x |>.2 (hsub x (by simp [hx]))))
  refine hkr.tail ?_
  rcases (hu.trans hv).circ h1 with e | e
  · exact hw.tail e
  · unfold r9Step
    have hcond := (r9Step_cond he hq a c).2 (((hu.trans hv).same.r9 hs hq a c).2 h3)
    have hep : ep v.1 c a .circle = true := (ep_iff hq).2 ⟨by simp, e⟩
    simp only [hep, Bool.not_true, Bool.false_eq_true, if_false, hcond, if_true]
    rw [reor_g hq (by simp [e]) (m1 := .tail) (m2 := .arrow) (by simp) (by simp) (by simp), set2_left]

/-! ### R10 -/

structure R10Inv (s u : GG n × Bool) : Prop extends TStep s u where
  why : ∀ a c, u.1.g a c ≠ s.1.g a c → s.1.g c a = .arrow ∧
    ∃ b d, b ≠ a ∧ d ≠ a ∧ u.1.g b c = .tail ∧ u.1.g d c = .tail ∧ s.1.CodedR10 a c b d

theorem R10Inv.rfl {s : GG n × Bool} : R10Inv s s := ⟨TStep.rfl, fun _ _ h => absurd (Eq.refl _) h⟩

theorem R10Inv.next {s u v : GG n × Bool} (h : R10Inv s u) (hsv : TStep s v) (huv : ∀ a b, u.1.g a b = .tail → v.1.g a b = .tail)
    (hw : ∀ a c, v.1.g a c ≠ u.1.g a c → s.1.g c a = .arrow ∧
    ∃ b d, b ≠ a ∧ d ≠ a ∧ u.1.g b c = .tail ∧ u.1.g d c = .tail ∧ s.1.CodedR10 a c b d) : R10Inv s v := by
  refine ⟨hsv, fun a c hac => ?_⟩
  obtain ⟨q1, b, d, q2, q3, q4, q5, q6⟩ : s.1.g c a = .arrow ∧
      ∃ b d, b ≠ a ∧ d ≠ a ∧ u.1.g b c = .tail ∧ u.1.g d c = .tail ∧ s.1.CodedR10 a c b d := by
    by_cases e : v.1.g a c = u.1.g a c
    · exact h.why a c (e ▸ hac)
    · exact hw a c e
  exact ⟨q1, b, d, q2, q3, huv _ _ q4, huv _ _ q5, q6⟩

theorem mem_r10kids {env : FciEnv n} (he : env.Ok) {G : GG n} (h : G.Pag) {a c b : Fin n} :
    b ∈ possibleChildren env G a ((G.adjacentNodes a).filter fun u => u ≠ c) ↔ G.PossibleChild a c b := by
  rw [← mem_possibleChildren he h]
  unfold possibleChildren isPossibleParent
  rw [(he.setOrder _).mem_iff, (he.setOrder _).mem_iff]
  simp only [List.mem_filter, decide_eq_true_eq, Bool.and_eq_true, Bool.not_eq_true', ne_eq]
  grind

theorem pairsOf_ne {α : Type} {l : List α} (h : l.Nodup) {p : α × α} (hp : p ∈ pairsOf l) : p.1 ≠ p.2 := by
  induction l with
  | nil => simp [pairsOf] at hp
  | cons a l ih =>
    rw [List.nodup_cons] at h
    simp only [pairsOf, List.mem_append, List.mem_map] at hp
    rcases hp with ⟨b, hb, rfl⟩ | hp
    · exact fun e => h.1 (by simp at e; rw [e]; exact hb)
    · exact ih h.2 hp

theorem r10Node_inv {env : FciEnv n} (he : env.Ok) {s u : GG n × Bool} (hs : s.1.Pag) (h : R10Inv s u) (c : Fin n) :
    R10Inv s (r10Node env u c) := by
  have hpu := h.ref.pag hs
  unfold r10Node
  dsimp only
  have harr : ∀ x ∈ u.1.nodesInto c .arrow, s.1.g c x = .arrow := fun x hx =>
    h.tails _ _ ((mem_nodesInto hpu (by simp)).1 hx)
  have hnd : (u.1.nodesInto c .arrow).Nodup := by
    unfold nodesInto; exact (List.nodup_finRange n).filter _
  refine (foldl_inv (fun v => R10Inv s v ∧ TStep u v) _ _ (fun v hv a ha => ?_) _ ⟨h, TStep.rfl⟩).1
  simp only [List.mem_filter, ep_iff hpu] at ha
  have hac := harr a ha.1
  have hpv := hv.1.ref.pag hs
  unfold r10A
  dsimp only
  split
  · exact hv
  · have hkids : ∀ x ∈ possibleChildren env v.1 a ((v.1.adjacentNodes a).filter fun u => u ≠ c), s.1.PossibleChild a c x :=
      fun x hx => (hv.1.toTStep.same.child hs hpv a c x).1 ((mem_r10kids he hpv).1 hx)
    have hknd : (possibleChildren env v.1 a ((v.1.adjacentNodes a).filter fun u => u ≠ c)).Nodup := by
      unfold possibleChildren
      exact (he.setOrder _).nodup_iff.2 ((((List.nodup_finRange n).filter _).filter _).filter _)
    generalize possibleChildren env v.1 a ((v.1.adjacentNodes a).filter fun u => u ≠ c) = kids at hkids hknd
    refine foldl_inv (fun w => R10Inv s w ∧ TStep u w) _ _ (fun w hw p hp => ?_) _ hv
    have hpw := hw.1.ref.pag hs
    unfold r10Step
    split
    · exact hw
    · split
      · exact hw
      · split
        · rename_i t1 t2 hq
          simp only [Bool.not_eq_true', Bool.not_eq_false, ep_iff hpw] at t1 t2
          simp only [List.any_eq_true, Bool.and_eq_true, Bool.not_eq_true', C30_semi_directed_exact hpw] at hq
          obtain ⟨q, hqm, ⟨hq1, hq2⟩, hq3⟩ := hq
          have hcw := hw.2.circ ha.2.2
          have hne : w.1.g a c ≠ .null := by rcases hcw with e | e <;> simp [e]
          have hwca : w.1.g c a = .arrow := (hw.1.toTStep.same.arrow c a).2 hac
          have e := reor_g hpw hne (m1 := .tail) (m2 := .arrow) (by simp) (by simp) (by simp)
          have h0 := hw.2.arrow hpu ha.2.2 ((mem_nodesInto hpu (by simp)).1 ha.1)
          refine ⟨hw.1.next (h.toTStep.trans h0) (fun x y hxy => ?_) (fun x y hxy => ?_), h0⟩
          · simp only [e]; unfold set2; grind
          · simp only [e] at hxy
            have hxy' : x = a ∧ y = c ∧ w.1.g a c = .circle := by unfold set2 at hxy; grind
            obtain ⟨rfl, rfl, hcirc⟩ := hxy'
            have hb := harr _ (mem_pairsOf hp).1
            have hd := harr _ (mem_pairsOf hp).2
            refine ⟨hac, p.1, p.2, fun e' => ?_, fun e' => ?_, t1.2, t2.2, pairsOf_ne hnd hp, ?_, ?_, q.1, q.2, pairsOf_ne hknd hqm,
              hkids _ (mem_pairsOf hqm).1, hkids _ (mem_pairsOf hqm).2, ?_, ?_, ?_⟩
            · rw [← e', t1.2] at hcirc; simp at hcirc
            · rw [← e', t2.2] at hcirc; simp at hcirc
            · rw [getEndpoint_iff hs]; exact ⟨by simp, hb⟩
            · rw [getEndpoint_iff hs]; exact ⟨by simp, hd⟩
            · rw [← hw.1.toTStep.same.adj hs hpw]; exact hq3
            · simpa only [hw.1.toTStep.same.walk hs hpw] using hq1
            · simpa only [hw.1.toTStep.same.walk hs hpw] using hq2
        · exact hw

theorem r10_inv {env : FciEnv n} (he : env.Ok) {s : GG n × Bool} (hs : s.1.Pag) : R10Inv s (r10 env s) :=
  foldl_inv (R10Inv s) _ _ (fun _ hu c _ => r10Node_inv he hs hu c) _ R10Inv.rfl

end Fci

/-! ## The theorems -/

/-- **C72, R9.** `rule9` changes the mark at `a` on `a o→ c` into a tail exactly when `a` has a possible child that is not adjacent to `c`
and from which a semi-directed walk leads to `c`, in the graph the rule is called with; it changes nothing else. The result does not
depend on the order in which sets are traversed. -/
theorem C72_R9_exact {env : FciEnv n} (he : env.Ok) {G : GG n} (h : G.Pag) (flag : Bool) :
    let H := (r9 env (G, flag)).1
    (∀ a c, G.getEndpoint c a = some .circle → G.getEndpoint a c = some .arrow → G.CodedR9 a c → H.getEndpoint c a = some .tail) ∧
    (∀ a c, H.getEndpoint c a ≠ G.getEndpoint c a → G.getEndpoint c a = some .circle ∧ H.getEndpoint c a = some .tail ∧
      G.getEndpoint a c = some .arrow ∧ G.CodedR9 a c) ∧
    ∀ a c, H.isAdj a c = G.isAdj a c := by
  intro H
  have hinv := r9_inv he (s := (G, flag)) h
  have hp : H.Pag := hinv.ref.pag h
  refine ⟨fun a c h1 h2 h3 => ?_, fun a c hne => ?_, fun a c => hinv.toTStep.same.adj h hp a c⟩
  · rw [getEndpoint_iff h] at h1 h2
    rw [getEndpoint_iff hp]
    exact ⟨by simp, r9_complete he (s := (G, flag)) h h1.2 h2.2 h3⟩
  · have hne' : H.g a c ≠ G.g a c := fun e => hne (by rw [getEndpoint_eq' h, getEndpoint_eq' hp, e])
    have hw := hinv.why a c hne'
    have hc : G.g a c = .circle := by have := hinv.ref.step a c; exact (this.resolve_left hne').1
    have ht : H.g a c = .tail := by
      rcases hinv.toTStep.circ hc with e | e
      · exact e
      · exact absurd (e.trans hc.symm) hne'
    simp only [getEndpoint_iff h, getEndpoint_iff hp]
    exact ⟨⟨by simp, hc⟩, ⟨by simp, ht⟩, ⟨by simp, hw.1⟩, hw.2⟩

/-- **C72, R10.** `rule10` changes the mark at `a` on `a o→ c` into a tail only if there are two other parents `b → c`, `d → c` (in the
result) and two non-adjacent possible children of `a` with semi-directed walks to `b` and `d`; it changes nothing else. -/
theorem C72_R10_sound {env : FciEnv n} (he : env.Ok) {G : GG n} (h : G.Pag) (flag : Bool) :
    let H := (r10 env (G, flag)).1
    (∀ a c, H.getEndpoint c a ≠ G.getEndpoint c a → G.getEndpoint c a = some .circle ∧ H.getEndpoint c a = some .tail ∧
      G.getEndpoint a c = some .arrow ∧ ∃ b d, b ≠ a ∧ d ≠ a ∧ H.getEndpoint c b = some .tail ∧ H.getEndpoint c d = some .tail ∧
        G.CodedR10 a c b d) ∧
    ∀ a c, H.isAdj a c = G.isAdj a c := by
  intro H
  have hinv := r10_inv he (s := (G, flag)) h
  have hp : H.Pag := hinv.ref.pag h
  refine ⟨fun a c hne => ?_, fun a c => hinv.toTStep.same.adj h hp a c⟩
  have hne' : H.g a c ≠ G.g a c := fun e => hne (by rw [getEndpoint_eq' h, getEndpoint_eq' hp, e])
  obtain ⟨w1, b, d, w2, w3, w4, w5, w6⟩ := hinv.why a c hne'
  have hc : G.g a c = .circle := by have := hinv.ref.step a c; exact (this.resolve_left hne').1
  have ht : H.g a c = .tail := by
    rcases hinv.toTStep.circ hc with e | e
    · exact e
    · exact absurd (e.trans hc.symm) hne'
  simp only [getEndpoint_iff h, getEndpoint_iff hp]
  exact ⟨⟨by simp, hc⟩, ⟨by simp, ht⟩, ⟨by simp, w1⟩, b, d, w2, w3, ⟨by simp, w4⟩, ⟨by simp, w5⟩, w6⟩

/-- **C66, rule R9.** In the returned graph no `a o→ c` is left such that some uncovered or covered potentially directed path
`a, b, …, c` exists with `b` not adjacent to `c`. -/
theorem C66_closed_under_R9 {env : FciEnv n} (he : env.Ok) (depth : Option Nat) {H : GG n} (hH : fci env depth = some H) {a c : Fin n}
    (h1 : H.getEndpoint c a = some .circle) (h2 : H.getEndpoint a c = some .arrow) {b : Fin n} {l : List (Fin n)}
    (hw : H.SemiWalk a c (a :: b :: l)) (hb : b ≠ c) : H.isAdj b c = true := by
  obtain ⟨s, H', e1, e2, hp, -, q⟩ := C66_result_is_fixpoint_partial env depth
  rw [hH] at e2; cases e2
  by_contra hn
  simp only [Bool.not_eq_true] at hn
  obtain ⟨q1, q2, q3, q4⟩ := hw
  have hs := q4 a b ⟨[], l, by simp⟩
  have hba : b ≠ a := by
    rintro rfl
    rw [isAdj_iff hp] at hs
    exact ne_of_adj hp hs.1 rfl
  have hsub : H.SemiWalk b c (b :: l) := by
    refine ⟨?_, rfl, ?_, fun u v huv => q4 u v (huv.trans (List.suffix_cons a _).isInfix)⟩
    · cases l with
      | nil => simp at q3; exact absurd q3 hb
      | cons x l => simp
    · simpa using q3
  have := (C72_R9_exact he hp false).1 a c h1 h2 ⟨b, ⟨hba, hb, hs.1, hs.2⟩, hn, _, hsub⟩
  rw [q.2.2.2.2.2.2.1] at this
  simp [h1] at this

/-! ## Cases -/

/-- `0 o→ 3`, `0 o-o 1`, `1 → 2 → 3`. -/
def r9Graph : GG 4 := run [.addEdge 0 3 .circle .arrow, .addEdge 0 1 .circle .circle, .addEdge 1 2 .tail .arrow, .addEdge 2 3 .tail .arrow]

/-- A case in which R9 has something to do. -/
example : r9Graph.Pag ∧ r9Graph.CodedR9 0 3 ∧ r9Graph.getEndpoint 3 0 = some .circle ∧ r9Graph.getEndpoint 0 3 = some .arrow ∧
    (r9 (exEnv (fun _ _ _ => false) Know.none) (r9Graph, false)).1.getEndpoint 3 0 = some .tail := by
  have hp : r9Graph.Pag := ⟨by decide, by decide, by decide⟩
  exact ⟨hp, ⟨1, ⟨by decide, by decide, by decide, by decide⟩, by decide, (C30_semi_directed_exact hp _ _).1 (by decide +kernel)⟩, by decide, by decide,
    by decide +kernel⟩

/-- `0 o→ 5`, `0 o→ 1`, `0 o→ 2`, `1 → x → 5`, `2 → y → 5`. -/
def r10Graph (x y : Fin 6) : GG 6 := run [.addEdge 0 5 .circle .arrow, .addEdge 0 1 .circle .arrow, .addEdge 0 2 .circle .arrow,
  .addEdge 1 x .tail .arrow, .addEdge 2 y .tail .arrow, .addEdge x 5 .tail .arrow, .addEdge y 5 .tail .arrow]

/-- A case in which R10 has something to do. -/
example : (r10Graph 3 4).Pag ∧ (r10 (exEnv (fun _ _ _ => false) Know.none) (r10Graph 3 4, false)).1.getEndpoint 5 0 = some .tail ∧
    (r10Graph 3 4).getEndpoint 5 0 = some .circle :=
  ⟨⟨by decide, by decide, by decide⟩, by decide +kernel, by decide⟩

/-- **C72 violated (order).** Only the first of two possible children is tried with the first of the two parents. The children are
held in a `set`; the same graph is oriented with one traversal order of that set and left alone with the other. -/
theorem C72_R10_set_order_violated :
    (r10Graph 4 3).Pag ∧ (r10Graph 4 3).CodedR10 0 5 3 4 ∧
    (r10 (exEnv (fun _ _ _ => false) Know.none) (r10Graph 4 3, false)).1.getEndpoint 5 0 = some .circle ∧
    (r10 { exEnv (fun _ _ _ => false) Know.none with setOrder := List.reverse } (r10Graph 4 3, false)).1.getEndpoint 5 0 = some .tail := by
  have hp : (r10Graph 4 3).Pag := ⟨by decide, by decide, by decide⟩
  refine ⟨hp, ⟨by decide, by decide, by decide, 2, 1, by decide, ⟨by decide, by decide, by decide, by decide⟩,
    ⟨by decide, by decide, by decide, by decide⟩, by decide, (C30_semi_directed_exact hp _ _).1 (by decide +kernel),
    (C30_semi_directed_exact hp _ _).1 (by decide +kernel)⟩, by decide +kernel, by decide +kernel⟩

/-- **C72 violated (direct parents).** `0 o→ 3`, `0 o→ 1 → 3`, `0 o→ 2 → 3` with `1`, `2` not adjacent: Zhang's R10 (with the
one-edge paths `0, 1` and `0, 2`) orients `0 → 3`. The code asks for a semi-directed path from `1` to itself and finds none. -/
theorem C72_R10_direct_violated :
    let G : GG 4 := run [.addEdge 0 3 .circle .arrow, .addEdge 0 1 .circle .arrow, .addEdge 0 2 .circle .arrow, .addEdge 1 3 .tail .arrow,
      .addEdge 2 3 .tail .arrow]
    G.Pag ∧ G.isAdj 1 2 = false ∧ (r10 (exEnv (fun _ _ _ => false) Know.none) (G, false)).1.getEndpoint 3 0 = some .circle ∧
    (r10 { exEnv (fun _ _ _ => false) Know.none with setOrder := List.reverse } (G, false)).1.getEndpoint 3 0 = some .circle := by
  refine ⟨⟨by decide, by decide, by decide⟩, by decide, by decide +kernel, by decide +kernel⟩

end CL
