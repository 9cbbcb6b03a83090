import Verif.Proofs.Fci

/-!
# Every FCI rule except R4 only refines circles, and raises the flag only when a circle is gone
-/
namespace CL
open GG
namespace Fci
variable {n : Nat}

theorem not_null_of_eq {G : GG n} {a b : Fin n} {m : Mark} (h : G.g a b = m) (hm : m ≠ .null) : G.g a b ≠ .null := by
  rw [h]; exact hm

theorem adj_symm {G : GG n} (h : G.Pag) {a b : Fin n} (hab : G.g a b ≠ .null) : G.g b a ≠ .null :=
  fun hc => hab ((h.symm a b).2 hc)

/-- Reorienting with an arrowhead at `b` where the mark at `b` is a circle or an arrowhead. -/
theorem reorKeep_arrow {G : GG n} (h : G.Pag) {a b : Fin n} (hb : G.g b a = .arrow ∨ G.g b a = .circle) :
    Refine G (reorKeep G a b .arrow) ∧ (reorKeep G a b .arrow).g b a = .arrow ∧ (reorKeep G a b .arrow).g = set2 G.g a b (G.g a b) .arrow := by
  have hba : G.g b a ≠ .null := by rcases hb with e | e <;> simp [e]
  have hab := adj_symm h hba
  have e := reorKeep_g h hab (m := .arrow) (by simp) (by simp)
  exact ⟨Refine.set2 h hab (Or.inl rfl) (by grind) e, by rw [e, set2_right (ne_of_adj h hab)], e⟩

/-- Reorienting with a tail at `a` where the mark at `a` is a circle or a tail. -/
theorem reorKeep2_tail {G : GG n} (h : G.Pag) {a b : Fin n} (ha : G.g a b = .tail ∨ G.g a b = .circle) :
    Refine G (reorKeep2 G a b .tail) ∧ (reorKeep2 G a b .tail).g a b = .tail ∧ (reorKeep2 G a b .tail).g = set2 G.g a b .tail (G.g b a) := by
  have hab : G.g a b ≠ .null := by rcases ha with e | e <;> simp [e]
  have e := reorKeep2_g h hab (m := .tail) (by simp)
  exact ⟨Refine.set2 h hab (by grind) (Or.inl rfl) e, by rw [e, set2_left], e⟩

theorem r1_step {k : Know n} {st : GG n × Bool} (h : st.1.Pag) (a b c : Fin n) : Step st (r1 k st a b c) := by
  unfold r1
  split
  · exact Step.rfl
  · split
    · rename_i hc
      simp only [Bool.and_eq_true, ep_iff h] at hc
      split
      · exact Step.rfl
      · rename_i hal
        simp only [Bool.not_eq_true', Bool.not_eq_false] at hal
        have hm := allowed_marks h hal
        have hbc : st.1.g b c = .circle := hc.2.2
        have hcb : st.1.g c b ≠ .null := by rcases hm with e | e <;> simp [e]
        have e := reor_g h hcb (m1 := .arrow) (m2 := .tail) (by simp) (by simp) (by simp)
        refine Step.rfl.set (Refine.set2 h hcb (by grind) (by grind) e) ⟨b, c, hbc, ?_⟩
        rw [e, set2_right (ne_of_adj h hcb)]; simp
    · exact Step.rfl

theorem r2_step {k : Know n} {st : GG n × Bool} (h : st.1.Pag) (a b c : Fin n) : Step st (r2 k st a b c) := by
  unfold r2
  split
  · rename_i hc
    simp only [Bool.and_eq_true, ep_iff h] at hc
    split
    · split
      · exact Step.rfl
      · obtain ⟨r, e, -⟩ := reorKeep_arrow h (a := a) (b := c) (Or.inr hc.2.2)
        exact Step.rfl.set r ⟨c, a, hc.2.2, by rw [e]; simp⟩
    · exact Step.rfl
  · exact Step.rfl

theorem r1r2Step_step {k : Know n} {b : Fin n} {st : GG n × Bool} (h : st.1.Pag) (p : Fin n × Fin n) : Step st (r1r2Step k b st p) := by
  unfold r1r2Step
  have s1 := r1_step (k := k) h p.1 b p.2
  have s2 := s1.trans (r1_step (k := k) (s1.ref.pag h) p.2 b p.1)
  have s3 := s2.trans (r2_step (k := k) (s2.ref.pag h) p.1 b p.2)
  exact s3.trans (r2_step (k := k) (s3.ref.pag h) p.2 b p.1)

theorem r1r2_step {k : Know n} {st : GG n × Bool} (h : st.1.Pag) : Step st (r1r2 k st) := by
  unfold r1r2
  refine Step.rfl.fold _ _ h fun u hu hp b _ => hu.trans ?_
  exact Step.rfl.fold _ _ hp fun v hv hq p _ => hv.trans (r1r2Step_step hq p)

theorem r3Step_step {k : Know n} {ss : SSet n} {b d : Fin n} {s st : GG n × Bool} (hs : Step s st) (h : st.1.Pag)
    (hd : s.1.g b d = .circle) (p : Fin n × Fin n) : Step s (r3Step k ss b d st p) := by
  unfold r3Step
  repeat' split
  all_goals first | exact hs | skip
  rename_i hal
  simp only [Bool.not_eq_true', Bool.not_eq_false] at hal
  obtain ⟨r, e, -⟩ := reorKeep_arrow h (allowed_marks h hal)
  exact hs.set r ⟨b, d, hd, by rw [e]; simp⟩

theorem r3Node_step {k : Know n} {ss : SSet n} {st : GG n × Bool} (h : st.1.Pag) (b : Fin n) : Step st (r3Node k ss st b) := by
  unfold r3Node
  refine Step.rfl.fold _ _ h fun u hu _ d hd => ?_
  rw [mem_nodesInto h (by simp)] at hd
  exact hu.fold _ _ h fun v hv hq p _ => r3Step_step hv hq hd p

theorem r3_step {k : Know n} {ss : SSet n} {st : GG n × Bool} (h : st.1.Pag) : Step st (r3 k ss st) :=
  Step.rfl.fold _ _ h fun _ hu hp b _ => hu.trans (r3Node_step hp b)

/-- Two tails on a pair whose marks are both circles or already both tails. -/
theorem reor_tails {G : GG n} (h : G.Pag) {a b : Fin n} (ha : G.g a b = .tail ∨ G.g a b = .circle)
    (hb : G.g b a = .tail ∨ G.g b a = .circle) :
    Refine G (reor G a b .tail .tail) ∧ (reor G a b .tail .tail).g = set2 G.g a b .tail .tail := by
  have hab : G.g a b ≠ .null := by rcases ha with e | e <;> simp [e]
  have e := reor_g h hab (m1 := .tail) (m2 := .tail) (by simp) (by simp) (by simp)
  exact ⟨Refine.set2 h hab (by grind) (by grind) e, e⟩

/-- Neither mark of the pair is an arrowhead, and the pair is adjacent. -/
def Plain (G : GG n) (a b : Fin n) : Prop :=
  (G.g a b = .tail ∨ G.g a b = .circle) ∧ (G.g b a = .tail ∨ G.g b a = .circle)

theorem Plain.symm {G : GG n} {a b : Fin n} (h : Plain G a b) : Plain G b a := ⟨h.2, h.1⟩

/-- Refinements in which only tails appear. -/
structure TailRef (G H : GG n) : Prop where
  ref : Refine G H
  tails : ∀ a b, H.g a b = .arrow → G.g a b = .arrow
  both : ∀ a b, H.g a b = G.g a b ∨ (H.g a b = .tail ∧ H.g b a = .tail)

theorem TailRef.rfl {G : GG n} : TailRef G G := ⟨Refine.rfl, fun _ _ h => h, fun _ _ => Or.inl (Eq.refl _)⟩
theorem TailRef.trans {G H K : GG n} (h1 : TailRef G H) (h2 : TailRef H K) : TailRef G K := by
  refine ⟨h1.ref.trans h2.ref, fun a b h => h1.tails a b (h2.tails a b h), fun a b => ?_⟩
  have := h1.both a b
  have := h2.both a b
  have := h2.both b a
  grind

theorem TailRef.plain {G H : GG n} (h : TailRef G H) {a b : Fin n} (hp : Plain G a b) : Plain H a b := by
  have h1 := h.ref.step a b
  have h2 := h.ref.step b a
  have h3 := h.tails a b
  have h4 := h.tails b a
  unfold Plain at *
  grind

theorem reor_tails' {G : GG n} (h : G.Pag) {a b : Fin n} (hp : Plain G a b) : TailRef G (reor G a b .tail .tail) := by
  obtain ⟨r, e⟩ := reor_tails h hp.1 hp.2
  refine ⟨r, fun x y hxy => ?_, fun x y => ?_⟩
  · rw [e] at hxy
    unfold set2 at hxy
    grind
  · rw [e]
    unfold set2
    grind

theorem TailRef.foldPairs {G H : GG n} (hG : G.Pag) (l : List (Fin n × Fin n)) (h : TailRef G H)
    (hl : ∀ p ∈ l, Plain G p.1 p.2) : TailRef G (l.foldl (fun G p => reor G p.1 p.2 .tail .tail) H) :=
  foldl_inv (TailRef G) _ l (fun K hK p hp => hK.trans (reor_tails' (hK.ref.pag hG) (hK.plain (hl p hp)))) H h

/-- All consecutive pairs of the path are adjacent without arrowheads. -/
def PlainPath (G : GG n) (path : List (Fin n)) : Prop := ∀ p ∈ path.zip path.tail, Plain G p.1 p.2

theorem TailRef.plainPath {G H : GG n} (h : TailRef G H) {path : List (Fin n)} (hp : PlainPath G path) : PlainPath H path :=
  fun p hm => h.plain (hp p hm)

theorem orientOnPath_ref {G : GG n} (hG : G.Pag) {a b : Fin n} {path : List (Fin n)} (hp : PlainPath G path)
    (h1 : ∀ c, path.head? = some c → Plain G a c) (h2 : ∀ d, path.getLast? = some d → Plain G b d) :
    TailRef G (orientOnPath G a b path) := by
  unfold orientOnPath
  split
  · rename_i c d hc hd
    have s1 := reor_tails' hG (h1 c hc)
    have s2 := s1.trans (reor_tails' (s1.ref.pag hG) (s1.plain (h2 d hd)))
    exact s2.foldPairs hG _ hp
  · exact TailRef.rfl

theorem plainPath_append {G : GG n} {path : List (Fin n)} {t c : Fin n} (hp : PlainPath G path) (hl : path.getLast? = some t)
    (hc : Plain G t c) : PlainPath G (path ++ [c]) := by
  induction path with
  | nil => simp at hl
  | cons a l ih =>
    cases l with
    | nil =>
      simp only [List.getLast?_singleton, Option.some.injEq] at hl
      subst hl
      intro p hm
      simp at hm
      subst hm
      exact hc
    | cons b l =>
      intro p hm
      simp only [List.cons_append, List.tail_cons, List.zip_cons_cons, List.mem_cons] at hm
      rcases hm with rfl | hm
      · exact hp (a, b) (by simp)
      · refine ih (fun q hq => hp q ?_) (by simpa [List.getLast?_cons_cons] using hl) p (by simpa using hm)
        simp only [List.tail_cons, List.zip_cons_cons, List.mem_cons]
        exact Or.inr hq

theorem circleSteps_mem {G : GG n} (h : G.Pag) {excl : List (Fin n)} {v c : Fin n} :
    c ∈ circleSteps G excl v ↔ c ∉ excl ∧ G.g v c = .circle ∧ G.g c v = .circle := by
  unfold circleSteps
  simp only [List.mem_filterMap, mem_adjacentNodes h]
  constructor
  · rintro ⟨u, hu, hc⟩
    have hvu := adj_symm h hu
    have hne := ne_of_adj h hvu
    have hnu : ¬ u = v := fun e => hne e.symm
    rw [getEdge_eq hvu] at hc
    simp only [Option.bind_some] at hc
    unfold mkEdge traverseCircle at hc
    split at hc <;> simp only [hne, hnu, if_false, if_true] at hc <;> split at hc <;>
      simp only [Option.bind_some, Option.bind_none, reduceCtorEq] at hc <;> split at hc <;> simp_all
  · rintro ⟨hx, h1, h2⟩
    have hvc : G.g v c ≠ .null := by simp [h1]
    refine ⟨c, adj_symm h hvc, ?_⟩
    rw [getEdge_eq hvc]
    simp [mkEdge, pointingLeft, traverseCircle, h1, h2, hx]

/-- The queue of the circle search: every entry is the last node of a path from the start that was made of circle edges. -/
def QGood (G : GG n) (c0 : Fin n) (Q : List (Fin n × List (Fin n))) : Prop :=
  ∀ q ∈ Q, q.2.head? = some c0 ∧ q.2.getLast? = some q.1 ∧ PlainPath G q.2

theorem QGood.enqueue {G : GG n} {c0 : Fin n} {path : List (Fin n)} {t : Fin n} (hh : path.head? = some c0)
    (hl : path.getLast? = some t) (hp : PlainPath G path) (cs : List (Fin n)) (hcs : ∀ c ∈ cs, Plain G t c)
    (s : List (Fin n × List (Fin n)) × List (Fin n)) (h : QGood G c0 s.1) : QGood G c0 (cs.foldl (enqueueP path) s).1 := by
  refine foldl_inv (fun s => QGood G c0 s.1) _ cs (fun s hs c hc => ?_) s h
  unfold enqueueP
  split
  · exact hs
  · intro q hq
    rcases List.mem_append.1 hq with hq | hq
    · exact hs q hq
    · simp only [List.mem_singleton] at hq
      subst hq
      refine ⟨?_, by simp, plainPath_append hp hl (hcs c hc)⟩
      cases path with
      | nil => simp at hl
      | cons a l => simpa using hh

theorem circleLoop_step {s : GG n × Bool} (hs : s.1.Pag) {a b c d : Fin n} (hab : s.1.g a b = .circle ∧ s.1.g b a = .circle)
    (hac : Plain s.1 a c) (hbd : Plain s.1 b d) : ∀ (f : Nat) (q : List (Fin n × List (Fin n)) × List (Fin n)) (st : GG n × Bool),
    Step s st → TailRef s.1 st.1 → QGood st.1 c q.1 →
    Step s (circleLoop a b d f q st) ∧ TailRef s.1 (circleLoop a b d f q st).1
  | 0, q, st, h, h', _ => by unfold circleLoop; exact ⟨h, h'⟩
  | f + 1, ([], V), st, h, h', _ => by unfold circleLoop; exact ⟨h, h'⟩
  | f + 1, ((t, path) :: Q, V), st, h, h', hq => by
    unfold circleLoop
    have hp := h.ref.pag hs
    obtain ⟨hh, hl, hpp⟩ := hq (t, path) (List.mem_cons_self ..)
    have hpab : Plain st.1 a b := h'.plain ⟨Or.inr hab.1, Or.inr hab.2⟩
    have s1 := reor_tails' hp hpab
    have key : ∀ st' : GG n × Bool, TailRef st.1 st'.1 → Step s st' →
        Step s (circleLoop a b d f ((circleSteps st'.1 [a, b] t).foldl (enqueueP path) (Q, V)) st') ∧
        TailRef s.1 (circleLoop a b d f ((circleSteps st'.1 [a, b] t).foldl (enqueueP path) (Q, V)) st').1 := by
      intro st' ht hst
      refine circleLoop_step hs hab hac hbd f _ st' hst (h'.trans ht) ?_
      refine QGood.enqueue hh hl (ht.plainPath hpp) _ (fun u hu => ?_) (Q, V) ?_
      · rw [circleSteps_mem (hst.ref.pag hs)] at hu
        exact ⟨Or.inr hu.2.1, Or.inr hu.2.2⟩
      · intro q' hq'
        obtain ⟨e1, e2, e3⟩ := hq q' (List.mem_cons_of_mem _ hq')
        exact ⟨e1, e2, ht.plainPath e3⟩
    by_cases hcond : t = d ∧ uncovered st.1 path = true
    · rw [if_pos hcond]
      have s2 : TailRef (reor st.1 a b .tail .tail) (orientOnPath (reor st.1 a b .tail .tail) a b path) := by
        refine orientOnPath_ref (s1.ref.pag hp) (s1.plainPath hpp) (fun x hx => ?_) (fun x hx => ?_)
        · rw [hh] at hx; cases hx
          exact s1.plain (h'.plain hac)
        · have hx' : path.getLast? = some x := hx
          have hl' : path.getLast? = some t := hl
          rw [hl'] at hx'
          cases hx'
          rw [hcond.1]
          exact s1.plain (h'.plain hbd)
      have s3 := s1.trans s2
      refine key _ s3 (h.set s3.ref ⟨a, b, hab.1, ?_⟩)
      have e : (reor st.1 a b .tail .tail).g a b = .tail := by
        rw [(reor_tails hp hpab.1 hpab.2).2, set2_left]
      have := s2.ref.step a b
      grind
    · rw [if_neg hcond]
      exact key _ TailRef.rfl h

theorem circlePaths_step {s : GG n × Bool} (hs : s.1.Pag) {a b c d : Fin n} (hab : s.1.g a b = .circle ∧ s.1.g b a = .circle)
    (hac : Plain s.1 a c) (hbd : Plain s.1 b d) {st : GG n × Bool} (h : Step s st) (h' : TailRef s.1 st.1) :
    Step s (circlePaths a b c d st) ∧ TailRef s.1 (circlePaths a b c d st).1 := by
  unfold circlePaths
  refine circleLoop_step hs hab hac hbd _ _ st h h' ?_
  refine QGood.enqueue (t := c) rfl rfl (by intro p hm; simp at hm) _ (fun u hu => ?_) ([], []) (by intro q hq; simp at hq)
  rw [circleSteps_mem (h.ref.pag hs)] at hu
  exact ⟨Or.inr hu.2.1, Or.inr hu.2.2⟩

theorem circleAdj_mem {G : GG n} (h : G.Pag) {a b v u : Fin n} (hu : u ∈ circleAdj G a b v) :
    u ≠ a ∧ u ≠ b ∧ G.g v u = .circle ∧ G.g u v = .circle := by
  unfold circleAdj at hu
  simp only [List.mem_filter, ep_iff h, decide_eq_true_eq] at hu
  exact ⟨hu.2.1, hu.2.2.1, hu.2.2.2.1.2, hu.2.2.2.2.2⟩

theorem r5Step_step {b a : Fin n} {st : GG n × Bool} (h : st.1.Pag) (hb : st.1.g b a = .circle) :
    Step st (r5Step b st a) ∧ TailRef st.1 (r5Step b st a).1 := by
  unfold r5Step
  split
  · exact ⟨Step.rfl, TailRef.rfl⟩
  · rename_i hc
    simp only [Bool.not_eq_true', Bool.not_eq_false, ep_iff h] at hc
    refine foldl_inv (fun u => Step st u ∧ TailRef st.1 u.1) _ _ (fun u hu p hp => ?_) st ⟨Step.rfl, TailRef.rfl⟩
    simp only [List.mem_flatMap, List.mem_map, List.mem_filter] at hp
    obtain ⟨c, ⟨hc', -⟩, d, ⟨hd', -⟩, rfl⟩ := hp
    have h1 := circleAdj_mem h hc'
    have h2 := circleAdj_mem h hd'
    exact circlePaths_step h ⟨hc.2, hb⟩ ⟨Or.inr h1.2.2.1, Or.inr h1.2.2.2⟩ ⟨Or.inr h2.2.2.1, Or.inr h2.2.2.2⟩ hu.1 hu.2

theorem r5_step {st : GG n × Bool} (h : st.1.Pag) : Step st (r5 st) := by
  unfold r5
  refine Step.rfl.fold _ _ h fun u hu hp b _ => hu.trans ?_
  have : ∀ (l : List (Fin n)) (w : GG n × Bool), w.1.Pag → (∀ a ∈ l, w.1.g b a = .circle ∨ w.1.g a b ≠ .circle) →
      Step w (l.foldl (r5Step b) w) := by
    intro l
    induction l with
    | nil => intro w _ _; exact Step.rfl
    | cons a l ih =>
      intro w hw hl
      have hstep : Step w (r5Step b w a) ∧ TailRef w.1 (r5Step b w a).1 := by
        rcases hl a (List.mem_cons_self ..) with e | e
        · exact r5Step_step hw e
        · have : r5Step b w a = w := by
            unfold r5Step
            rw [if_pos]
            simp only [Bool.not_eq_true', Bool.eq_false_iff, ne_eq, ep_iff hw]
            exact fun hc => e hc.2
          rw [this]; exact ⟨Step.rfl, TailRef.rfl⟩
      refine hstep.1.trans (ih _ (hstep.1.ref.pag hw) fun a' ha' => ?_)
      have h1 := hl a' (List.mem_cons_of_mem _ ha')
      have h2 := hstep.2.both b a'
      have h3 := hstep.2.both a' b
      grind
  refine this _ u hp fun a ha => Or.inl ?_
  rwa [mem_nodesInto hp (by simp)] at ha

/-- A step in which no arrowhead appeared. -/
structure TStep (s t : GG n × Bool) : Prop extends Step s t where
  tails : ∀ a b, t.1.g a b = .arrow → s.1.g a b = .arrow

theorem TStep.rfl {s : GG n × Bool} : TStep s s := ⟨Step.rfl, fun _ _ h => h⟩

theorem TStep.trans {s t u : GG n × Bool} (h1 : TStep s t) (h2 : TStep t u) : TStep s u :=
  ⟨h1.toStep.trans h2.toStep, fun a b h => h1.tails a b (h2.tails a b h)⟩

theorem TStep.fold {α : Type} {s t : GG n × Bool} (f : GG n × Bool → α → GG n × Bool) (l : List α) (h : TStep s t) (hs : s.1.Pag)
    (hf : ∀ u, TStep s u → u.1.Pag → ∀ x ∈ l, TStep s (f u x)) : TStep s (l.foldl f t) :=
  foldl_inv (TStep s) f l (fun u hu x hx => hf u hu (hu.ref.pag hs) x hx) t h

/-- A circle of the start is still a circle or has become a tail. -/
theorem TStep.circ {s t : GG n × Bool} (h : TStep s t) {a b : Fin n} (hc : s.1.g a b = .circle) :
    t.1.g a b = .tail ∨ t.1.g a b = .circle := by
  have h1 := h.ref.step a b
  have h2 := h.tails a b
  grind

theorem TStep.keep2 {s t : GG n × Bool} (hs : s.1.Pag) (h : TStep s t) {b c : Fin n} (hc : s.1.g b c = .circle) :
    TStep s (reorKeep2 t.1 b c .tail, true) := by
  obtain ⟨r, e, e'⟩ := reorKeep2_tail (h.ref.pag hs) (h.circ hc)
  refine ⟨h.toStep.set r ⟨b, c, hc, by rw [e]; simp⟩, fun x y hxy => h.tails x y ?_⟩
  simp only [e'] at hxy
  unfold set2 at hxy
  grind

theorem TStep.arrow {s t : GG n × Bool} (hs : s.1.Pag) (h : TStep s t) {a c : Fin n} (hc : s.1.g a c = .circle)
    (hac : s.1.g c a = .arrow) : TStep s (reor t.1 a c .tail .arrow, true) := by
  have hp := h.ref.pag hs
  have h1 := h.circ hc
  have h2 : t.1.g c a = .arrow := by have := h.ref.step c a; grind
  have hne : t.1.g a c ≠ .null := by rcases h1 with e | e <;> simp [e]
  have e := reor_g hp hne (m1 := .tail) (m2 := .arrow) (by simp) (by simp) (by simp)
  refine ⟨h.toStep.set (Refine.set2 hp hne (by grind) (by grind) e) ⟨a, c, hc, by rw [e, set2_left]; simp⟩, fun x y hxy => h.tails x y ?_⟩
  simp only [e] at hxy
  unfold set2 at hxy
  grind

theorem r6Node_step {st : GG n × Bool} (h : st.1.Pag) (b : Fin n) : TStep st (r6Node st b) := by
  unfold r6Node
  split
  · exact TStep.rfl.fold _ _ h fun u hu _ c hc => hu.keep2 h ((mem_nodesInto h (by simp)).1 hc)
  · exact TStep.rfl

theorem r6_step {st : GG n × Bool} (h : st.1.Pag) : TStep st (r6 st) :=
  TStep.rfl.fold _ _ h fun _ hu hp b _ => hu.trans (r6Node_step hp b)

theorem r7Node_step {st : GG n × Bool} (h : st.1.Pag) (b : Fin n) : TStep st (r7Node st b) := by
  unfold r7Node
  refine TStep.rfl.fold _ _ h fun u hu _ c hc => ?_
  have hc' := (mem_nodesInto h (by simp)).1 hc
  refine hu.fold _ _ h fun v hv _ a _ => ?_
  unfold r7Step
  split
  · exact hv
  · split
    · exact hv
    · exact hv.keep2 h hc'

theorem r7_step {st : GG n × Bool} (h : st.1.Pag) : TStep st (r7 st) :=
  TStep.rfl.fold _ _ h fun _ hu hp b _ => hu.trans (r7Node_step hp b)

theorem r8Step_step {b : Fin n} {st : GG n × Bool} (h : st.1.Pag) (p : Fin n × Fin n) : TStep st (r8Step b st p) := by
  unfold r8Step
  dsimp only
  split
  · rename_i hc
    simp only [Bool.or_eq_true, Bool.and_eq_true, ep_iff h] at hc
    exact TStep.rfl.arrow h (by tauto) (by tauto)
  · exact TStep.rfl

theorem r8_step {st : GG n × Bool} (h : st.1.Pag) : TStep st (r8 st) := by
  unfold r8
  refine TStep.rfl.fold _ _ h fun u hu hp b _ => hu.trans ?_
  exact TStep.rfl.fold _ _ hp fun v hv hq p _ => hv.trans (r8Step_step hq p)

theorem r9Step_step {env : FciEnv n} {c a : Fin n} {st : GG n × Bool} (h : st.1.Pag) (hac : st.1.g c a = .arrow) :
    TStep st (r9Step env c st a) := by
  unfold r9Step
  split
  · exact TStep.rfl
  · rename_i hc
    simp only [Bool.not_eq_true', Bool.not_eq_false, ep_iff h] at hc
    dsimp only
    split
    · exact TStep.rfl.arrow h hc.2 hac
    · exact TStep.rfl

theorem r9_step {env : FciEnv n} {st : GG n × Bool} (h : st.1.Pag) : TStep st (r9 env st) := by
  unfold r9
  refine TStep.rfl.fold _ _ h fun u hu hp c _ => hu.trans ?_
  refine TStep.rfl.fold _ _ hp fun v hv hq a ha => hv.trans (r9Step_step hq ?_)
  have := (mem_nodesInto hp (by simp)).1 ha
  have := hv.ref.step c a
  grind

theorem r10Node_step {env : FciEnv n} {st : GG n × Bool} (h : st.1.Pag) (c : Fin n) : TStep st (r10Node env st c) := by
  unfold r10Node
  refine TStep.rfl.fold _ _ h fun u hu hp a ha => ?_
  simp only [List.mem_filter, mem_nodesInto h (show Mark.arrow = .tail ∨ Mark.arrow = .arrow ∨ Mark.arrow = .circle by simp), ep_iff h] at ha
  unfold r10A
  dsimp only
  split
  · exact hu
  · refine hu.fold _ _ h fun v hv hq p _ => ?_
    unfold r10Step
    split
    · exact hv
    · split
      · exact hv
      · split
        · exact hv.arrow h ha.2.2 ha.1
        · exact hv

theorem r10_step {env : FciEnv n} {st : GG n × Bool} (h : st.1.Pag) : TStep st (r10 env st) :=
  TStep.rfl.fold _ _ h fun _ hu hp b _ => hu.trans (r10Node_step hp b)

/-! ### Rule R4 -/

/-- An orientation of rule R4 for the pair `c`, `b`: the circle at `b` is gone. -/
theorem doDdp_keep {env : FciEnv n} {ss : SSet n} {G G' : GG n} (h : G.Pag) {d a b c : Fin n} {path : List (Fin n)}
    (hbc : G.g b c ≠ .null) (hcb : G.g c b ≠ .circle) (he : doDdp env ss G d a b c path = some G') :
    Keep G G' ∧ G'.g b c ≠ .circle := by
  have hcb' := adj_symm h hbc
  have hne := ne_of_adj h hcb'
  unfold doDdp at he
  dsimp only at he
  revert he
  generalize (if (!env.ind d c path && !env.ind d c (path.erase b)) = true then Option.map (fun S => decide (b ∈ S)) (ss d c)
    else some (env.ind d c path)) = v
  intro he
  cases v with
  | none => simp at he
  | some v =>
    simp only [Option.elim_some] at he
    split at he
    · simp only [Option.some.injEq] at he
      subst he
      have e := reorKeep_g h hcb' (m := .tail) (by simp) (fun hc => hcb hc.1)
      have hm := h.marks c b
      refine ⟨⟨fun _ => set2_pag h hcb' (by tauto) (by simp) e, fun x y => ?_, fun x y => ?_⟩, ?_⟩
      · rw [e]; unfold set2; grind
      · rw [e]; unfold set2; grind
      · rw [e, set2_right hne]; simp
    · split at he
      · simp at he
      · rename_i hal
        simp only [Bool.or_eq_true, Bool.not_eq_true', not_or, Bool.not_eq_false] at hal
        simp only [Option.some.injEq] at he
        subst he
        obtain ⟨r1, -, e1⟩ := reorKeep_arrow h (allowed_marks h hal.1)
        have hb2 : (reorKeep G a b .arrow).g b c = .arrow ∨ (reorKeep G a b .arrow).g b c = .circle := by
          have := allowed_marks h hal.2
          have := r1.step b c
          rw [e1] at *
          unfold set2 at *
          grind
        obtain ⟨r2, e2, -⟩ := reorKeep_arrow (r1.pag h) hb2
        exact ⟨(r1.trans r2).keep, by rw [e2]; simp⟩

theorem ddpInner_keep {env : FciEnv n} {ss : SSet n} {G G' : GG n} (h : G.Pag) {a b c t : Fin n} {cPar : List (Fin n)}
    (hbc : G.g b c ≠ .null) (hcb : G.g c b ≠ .circle) : ∀ (ds : List (Fin n)) (st : DdpSt n),
    ddpInner env ss G a b c t cPar ds st = .inl G' → Keep G G' ∧ G'.g b c ≠ .circle
  | [], st, he => by simp [ddpInner] at he
  | d :: ds, st, he => by
    unfold ddpInner at he
    split at he
    · exact ddpInner_keep h hbc hcb ds _ he
    · split at he
      · exact ddpInner_keep h hbc hcb ds _ he
      · split at he
        · rename_i hr
          simp only [Sum.inl.injEq] at he
          subst he
          unfold ddpTry at hr
          split at hr
          · exact doDdp_keep h hbc hcb hr
          · simp at hr
        · exact ddpInner_keep h hbc hcb ds _ he

theorem ddpLoop_keep {env : FciEnv n} {ss : SSet n} {G G' : GG n} (h : G.Pag) {a b c : Fin n} {cPar : List (Fin n)}
    (hbc : G.g b c ≠ .null) (hcb : G.g c b ≠ .circle) : ∀ (f : Nat) (st : DdpSt n),
    ddpLoop env ss G a b c cPar f st = some G' → Keep G G' ∧ G'.g b c ≠ .circle
  | 0, st, he => by simp [ddpLoop] at he
  | f + 1, st, he => by
    unfold ddpLoop at he
    split at he
    · simp at he
    · split at he
      · simp at he
      · split at he
        · rename_i hi
          simp only [Option.some.injEq] at he
          subst he
          exact ddpInner_keep h hbc hcb _ _ hi
        · exact ddpLoop_keep h hbc hcb f _ he

theorem r4Step_keep {env : FciEnv n} {ss : SSet n} {b a c : Fin n} {s st : GG n × Bool} (hs : s.1.Pag) (h : StepK s st)
    (hc : s.1.g b c = .circle) : StepK s (r4Step env ss b a st c) := by
  have hp := h.keep.pag hs
  unfold r4Step
  split
  · exact h
  · split
    · exact h
    · rename_i hbc
      simp only [Bool.not_eq_true', Bool.not_eq_false, ep_iff hp] at hbc
      unfold ddpOrient
      generalize hl : ddpLoop env ss st.1 a b c _ _ _ = r
      cases r with
      | none => exact h
      | some G' =>
        obtain ⟨hk, hg⟩ := ddpLoop_keep hp (fun e => by have := (hp.symm b c).1 e; simp [hbc.2] at this) (by simp [hbc.2]) _ _ hl
        exact ⟨h.keep.trans hk, fun _ => Or.inr ⟨b, c, hc, hg⟩⟩

theorem r4Node_keep {env : FciEnv n} {ss : SSet n} {st : GG n × Bool} (h : st.1.Pag) (b : Fin n) : StepK st (r4Node env ss st b) := by
  unfold r4Node
  refine StepK.rfl.fold _ _ h fun u hu _ a _ => ?_
  exact hu.fold _ _ h fun v hv _ c hc => r4Step_keep h hv ((mem_nodesInto h (by simp)).1 hc)

theorem r4_keep {env : FciEnv n} {ss : SSet n} {st : GG n × Bool} (h : st.1.Pag) : StepK st (r4 env ss st) :=
  StepK.rfl.fold _ _ h fun _ hu hp b _ => hu.trans (r4Node_keep hp b)

/-- What an orientation of rule R4 touches: the mark at `b` on `b – c`, and circles. -/
theorem doDdp_local {env : FciEnv n} {ss : SSet n} {G G' : GG n} (h : G.Pag) {d a b c : Fin n} {path : List (Fin n)}
    (hbc : G.g b c ≠ .null) (hcb : G.g c b ≠ .circle) (he : doDdp env ss G d a b c path = some G') (x y : Fin n) :
    G'.g x y = G.g x y ∨ (x = b ∧ y = c) ∨ G.g x y = .circle := by
  have hcb' := adj_symm h hbc
  have hne := ne_of_adj h hcb'
  unfold doDdp at he
  dsimp only at he
  revert he
  generalize (if (!env.ind d c path && !env.ind d c (path.erase b)) = true then Option.map (fun S => decide (b ∈ S)) (ss d c)
    else some (env.ind d c path)) = v
  intro he
  cases v with
  | none => simp at he
  | some v =>
    simp only [Option.elim_some] at he
    split at he
    · simp only [Option.some.injEq] at he
      subst he
      rw [reorKeep_g h hcb' (m := .tail) (by simp) (fun hc => hcb hc.1)]
      unfold set2; grind
    · split at he
      · simp at he
      · rename_i hal
        simp only [Bool.or_eq_true, Bool.not_eq_true', not_or, Bool.not_eq_false] at hal
        simp only [Option.some.injEq] at he
        subst he
        obtain ⟨r1, -, e1⟩ := reorKeep_arrow h (allowed_marks h hal.1)
        have hb2 : (reorKeep G a b .arrow).g b c = .arrow ∨ (reorKeep G a b .arrow).g b c = .circle := by
          have := allowed_marks h hal.2
          have := r1.step b c
          rw [e1] at *
          unfold set2 at *
          grind
        obtain ⟨r2, e2, -⟩ := reorKeep_arrow (r1.pag h) hb2
        have := (r1.trans r2).step x y
        tauto

theorem ddpInner_of {P : GG n → Prop} {env : FciEnv n} {ss : SSet n} {G G' : GG n} {a b c t : Fin n} {cPar : List (Fin n)}
    (hP : ∀ d path G', doDdp env ss G d a b c path = some G' → P G') : ∀ (ds : List (Fin n)) (st : DdpSt n),
    ddpInner env ss G a b c t cPar ds st = .inl G' → P G'
  | [], st, he => by simp [ddpInner] at he
  | d :: ds, st, he => by
    unfold ddpInner at he
    split at he
    · exact ddpInner_of hP ds _ he
    · split at he
      · exact ddpInner_of hP ds _ he
      · split at he
        · rename_i hr
          simp only [Sum.inl.injEq] at he
          subst he
          unfold ddpTry at hr
          split at hr
          · exact hP _ _ _ hr
          · simp at hr
        · exact ddpInner_of hP ds _ he

theorem ddpLoop_of {P : GG n → Prop} {env : FciEnv n} {ss : SSet n} {G G' : GG n} {a b c : Fin n} {cPar : List (Fin n)}
    (hP : ∀ d path G', doDdp env ss G d a b c path = some G' → P G') : ∀ (f : Nat) (st : DdpSt n),
    ddpLoop env ss G a b c cPar f st = some G' → P G'
  | 0, st, he => by simp [ddpLoop] at he
  | f + 1, st, he => by
    unfold ddpLoop at he
    split at he
    · simp at he
    · split at he
      · simp at he
      · split at he
        · rename_i hi
          simp only [Option.some.injEq] at he
          subst he
          exact ddpInner_of hP _ _ hi
        · exact ddpLoop_of hP f _ he

/-- What `u` has changed of `s` were circles. -/
def FromCircles (s u : GG n) : Prop := ∀ x y, u.g x y = s.g x y ∨ s.g x y = .circle

theorem r4Step_from {env : FciEnv n} {ss : SSet n} {b a c : Fin n} {s st : GG n × Bool} (hs : s.1.Pag) (h : StepK s st)
    (hf : FromCircles s.1 st.1) (hc : s.1.g b c = .circle) : FromCircles s.1 (r4Step env ss b a st c).1 := by
  have hp := h.keep.pag hs
  unfold r4Step
  split
  · exact hf
  · split
    · exact hf
    · rename_i hbc
      simp only [Bool.not_eq_true', Bool.not_eq_false, ep_iff hp] at hbc
      unfold ddpOrient
      generalize hl : ddpLoop env ss st.1 a b c _ _ _ = r
      cases r with
      | none => exact hf
      | some G' =>
        have := ddpLoop_of (P := fun G' => ∀ x y, G'.g x y = st.1.g x y ∨ (x = b ∧ y = c) ∨ st.1.g x y = .circle)
          (fun d path G' he => doDdp_local hp (fun e => by have := (hp.symm b c).1 e; simp [hbc.2] at this) (by simp [hbc.2]) he) _ _ hl
        intro x y
        rcases this x y with q | ⟨rfl, rfl⟩ | q
        · simp only [Option.elim_some, q]; exact hf x y
        · exact Or.inr hc
        · exact Or.inr (h.keep.circ x y q)

theorem r4Node_from {env : FciEnv n} {ss : SSet n} {st : GG n × Bool} (h : st.1.Pag) (b : Fin n) : FromCircles st.1 (r4Node env ss st b).1 := by
  unfold r4Node
  have key := foldl_inv (fun u : GG n × Bool => StepK st u ∧ FromCircles st.1 u.1)
    (fun u a => (st.1.nodesInto b .circle).foldl (r4Step env ss b a) u) (st.1.nodesOutOf b .arrow) (fun u hu a _ => ?_) st
    ⟨StepK.rfl, fun _ _ => Or.inl (Eq.refl _)⟩
  · exact key.2
  · refine foldl_inv (fun u : GG n × Bool => StepK st u ∧ FromCircles st.1 u.1) _ _ (fun v hv c hc => ?_) u hu
    have hc' := (mem_nodesInto h (by simp)).1 hc
    exact ⟨r4Step_keep h hv.1 hc', r4Step_from h hv.1 hv.2 hc'⟩

theorem StepK.toStep {s t : GG n × Bool} (hs : s.1.Pag) (h : StepK s t) (hf : FromCircles s.1 t.1) : Step s t := by
  refine ⟨⟨h.keep.pag, fun a b => ?_⟩, h.flag⟩
  have h1 := hf a b
  have h2 := (h.keep.pag hs).marks a b
  have h3 := h.keep.null a b
  have h4 := h.keep.circ a b
  grind

/-- The whole rule R4 only replaces circles. -/
theorem r4_step {env : FciEnv n} {ss : SSet n} {st : GG n × Bool} (h : st.1.Pag) : Step st (r4 env ss st) :=
  Step.rfl.fold _ _ h fun _ hu hp b _ => hu.trans ((r4Node_keep hp b).toStep hp (r4Node_from hp b))

/-! ### The main loop -/

theorem round_keep {env : FciEnv n} {ss : SSet n} {first : Bool} {G : GG n} (h : G.Pag) :
    StepK (G, false) (round env ss first G).1 := by
  unfold round
  dsimp only
  have s2 := (r1r2_step (k := env.k) (st := (G, false)) h)
  have s3 := (s2.trans (r3_step (k := env.k) (ss := ss) (s2.ref.pag h))).toK
  have s4 : StepK (G, false) (if (r3 env.k ss (r1r2 env.k (G, false))).2 || (first && env.allKinds) then
      r4 env ss (r3 env.k ss (r1r2 env.k (G, false))) else r3 env.k ss (r1r2 env.k (G, false))) := by
    split
    · exact s3.trans (r4_keep (s3.keep.pag h))
    · exact s3
  have s5 := s4.trans (r5_step (s4.keep.pag h)).toK
  have s6 := s5.trans (r6_step (s5.keep.pag h)).toStep.toK
  have s7 := s6.trans (r7_step (s6.keep.pag h)).toStep.toK
  have s8 := s7.trans (r8_step (s7.keep.pag h)).toStep.toK
  have s9 := s8.trans (r9_step (env := env) (s8.keep.pag h)).toStep.toK
  exact s9.trans (r10_step (env := env) (s9.keep.pag h)).toStep.toK

theorem round_step {env : FciEnv n} {ss : SSet n} {first : Bool} {G : GG n} (h : G.Pag) :
    Step (G, false) (round env ss first G).1 := by
  unfold round
  dsimp only
  have s2 := (r1r2_step (k := env.k) (st := (G, false)) h)
  have s3 := s2.trans (r3_step (k := env.k) (ss := ss) (s2.ref.pag h))
  have s4 : Step (G, false) (if (r3 env.k ss (r1r2 env.k (G, false))).2 || (first && env.allKinds) then
      r4 env ss (r3 env.k ss (r1r2 env.k (G, false))) else r3 env.k ss (r1r2 env.k (G, false))) := by
    split
    · exact s3.trans (r4_step (s3.ref.pag h))
    · exact s3
  have s5 := s4.trans (r5_step (s4.ref.pag h))
  have s6 := s5.trans (r6_step (s5.ref.pag h)).toStep
  have s7 := s6.trans (r7_step (s6.ref.pag h)).toStep
  have s8 := s7.trans (r8_step (s7.ref.pag h)).toStep
  have s9 := s8.trans (r9_step (env := env) (s8.ref.pag h)).toStep
  exact s9.trans (r10_step (env := env) (s9.ref.pag h)).toStep

theorem mainLoop_refine {env : FciEnv n} {ss : SSet n} : ∀ (f : Nat) (first : Bool) (G H : GG n), G.Pag →
    mainLoop env ss f first G = some H → Refine G H
  | 0, _, _, _, _, e => by simp [mainLoop] at e
  | f + 1, first, G, H, hG, e => by
    unfold mainLoop at e
    dsimp only at e
    have hr := round_step (env := env) (ss := ss) (first := first) hG
    split at e
    · exact hr.ref.trans (mainLoop_refine f _ _ H (hr.ref.pag hG) e)
    · cases e; exact hr.ref

/-- The number of circle marks. -/
def circles (G : GG n) : Nat := (Finset.univ.filter fun p : Fin n × Fin n => G.g p.1 p.2 = .circle).card

theorem Keep.circles_lt {G H : GG n} (h : Keep G H) {a b : Fin n} (h1 : G.g a b = .circle) (h2 : H.g a b ≠ .circle) :
    circles H < circles G := by
  unfold circles
  apply Finset.card_lt_card
  rw [Finset.ssubset_iff_of_subset]
  · exact ⟨(a, b), by simp [h1], by simp [h2]⟩
  · intro p hp
    simp only [Finset.mem_filter, Finset.mem_univ, true_and] at hp ⊢
    exact h.circ _ _ hp

theorem circles_le (G : GG n) : circles G ≤ n * n := by
  unfold circles
  refine (Finset.card_le_univ _).trans ?_
  simp

theorem mainLoop_some {env : FciEnv n} {ss : SSet n} : ∀ (f : Nat) (first : Bool) (G : GG n), G.Pag → circles G < f →
    ∃ H first', mainLoop env ss f first G = some H ∧ Keep G H ∧ ∃ K, Keep G K ∧ K.Pag ∧ (round env ss first' K).1 = (H, false)
  | 0, _, _, _, hf => by omega
  | f + 1, first, G, hG, hf => by
    unfold mainLoop
    dsimp only
    have hr := round_keep (env := env) (ss := ss) (first := first) hG
    split
    · rename_i hflag
      rcases hr.flag hflag with hfl | ⟨a, b, h1, h2⟩
      · simp at hfl
      · have hlt := hr.keep.circles_lt h1 h2
        obtain ⟨H, first', e, hk, K, hK, hp, eK⟩ := mainLoop_some f (round env ss first G).2 _ (hr.keep.pag hG) (by simp only at hlt; omega)
        exact ⟨H, first', e, hr.keep.trans hk, K, hr.keep.trans hK, hp, eK⟩
    · rename_i hflag
      refine ⟨_, first, rfl, hr.keep, G, Keep.rfl, hG, ?_⟩
      simp only [Bool.not_eq_true] at hflag
      exact Prod.ext rfl hflag

end Fci
end CL
