import Verif.Props.Grasp
import Verif.Props.GesConsistent
import Mathlib.Data.List.TakeWhile

/-!
# Grow-shrink trees with a locally consistent score
-/
open Spec Relation
namespace Spec
variable {V : Type} {E : V → V → Prop} {Z : Set V}

/-- Intersection: if `v` is separated from `C` by `Z ∪ {a}` and from `a` by `Z ∪ C`, then it is separated from `a` by `Z`. -/
theorem dSep_inter (hac : Acyclic E) {v a : V} {C : Set V} (hC : ∀ c ∈ C, DSep E (Z ∪ {a}) v c) (ha : DSep E (Z ∪ C) v a)
    (hv : v ∉ Z ∪ C) (hva : v ≠ a) (haZ : a ∉ Z ∪ C) (hCZ : ∀ c ∈ C, c ∉ Z) : DSep E Z v a := by
  intro hcon
  rw [dConn_iff_moral hac (fun h => hv (Or.inl h)) (fun h => haZ (Or.inl h))] at hcon
  have key : ∀ u, ReflTransGen (MStep E Z ({v, a} ∪ Z)) v u →
      ReflTransGen (MStep E (Z ∪ C ∪ {a}) ({v, a} ∪ Z ∪ C)) v u ∨ False := by
    intro u hu
    left
    induction hu with
    | refl => exact .refl
    | @tail b c _ hs ih =>
      obtain ⟨k, h1, h2, h3, h4, h5⟩ := hs
      have hb : b ∉ Z ∪ C ∪ {a} := by
        rcases ReflTransGen.cases_tail ih with h | ⟨_, _, _, _, _, _, _, h⟩
        · rw [h]
          rintro (h | h)
          · exact hv h
          · exact hva h
        · exact h
      by_cases hca : c = a
      · exfalso
        subst hca
        refine ha ?_
        rw [dConn_iff_moral hac hv haZ]
        have hT1 : {v, c} ∪ Z ⊆ {v, c} ∪ (Z ∪ C) := Set.union_subset_union_right _ Set.subset_union_left
        have hT2 : {v, c} ∪ Z ∪ C ⊆ {v, c} ∪ (Z ∪ C) := by rw [Set.union_assoc]
        have ih' := ReflTransGen.mono (fun _ _ h => MStep.mono (Set.subset_union_left (s := Z ∪ C) (t := {c})) hT2 h) _ _ ih
        exact ih'.tail ⟨k, h1.mono hT1, h2, h3, fun h => hb (Or.inl h), haZ⟩
      · by_cases hcC : c ∈ C
        · exfalso
          have hvc : v ∉ Z ∪ {a} := by
            rintro (h | h)
            · exact hv (Or.inl h)
            · exact hva h
          have hcZ : c ∉ Z ∪ {a} := by
            rintro (h | h)
            · exact hCZ c hcC h
            · exact hca h
          refine moral_sep (Ys := C) hac hC (j := c) ?_ hcC
          have hZ1 : Z ∪ {a} ⊆ Z ∪ C ∪ {a} := by
            rintro x (h | h)
            · exact Or.inl (Or.inl h)
            · exact Or.inr h
          have hT1 : {v, a} ∪ Z ∪ C ⊆ {v} ∪ C ∪ (Z ∪ {a}) := by
            rintro x (((rfl | rfl) | h) | h)
            · exact Or.inl (Or.inl rfl)
            · exact Or.inr (Or.inr rfl)
            · exact Or.inr (Or.inl h)
            · exact Or.inl (Or.inr h)
          have ih' := ReflTransGen.mono (fun _ _ h => MStep.mono hZ1 hT1 h) _ _ ih
          exact ih'.tail ⟨k, h1.mono (Set.subset_union_left.trans hT1), h2, h3, fun h => hb (hZ1 h), hcZ⟩
        · refine ih.tail ⟨k, h1.mono Set.subset_union_left, h2, h3, hb, ?_⟩
          rintro ((h | h) | h)
          · exact h5 h
          · exact hcC h
          · exact hca h
  have h := (key a hcon).resolve_right id
  rcases ReflTransGen.cases_tail h with h | ⟨_, _, _, _, _, _, _, h⟩
  · exact hva h.symm
  · exact h (Or.inr rfl)

/-- A set of predecessors that separates `v` from the other predecessors and of which no element can be dropped consists of exactly the predecessors
that are dependent on `v` given all others. -/
theorem boundary_unique (hac : Acyclic E) {v : V} {P T : Set V} (hv : v ∉ P) (hTP : T ⊆ P) (hsep : ∀ c ∈ P, c ∉ T → DSep E T v c)
    (hmin : ∀ a ∈ T, ¬ DSep E (T \ {a}) v a) (a : V) : a ∈ T ↔ a ∈ P ∧ ¬ DSep E (P \ {a}) v a := by
  constructor
  · intro ha
    refine ⟨hTP ha, fun hs => hmin a ha ?_⟩
    refine dSep_inter (C := P \ T) hac ?_ ?_ ?_ (fun h => hv (h ▸ hTP ha)) ?_ ?_
    · intro c hc
      have : T \ {a} ∪ {a} = T := by
        ext x
        by_cases hx : x = a <;> simp [hx, ha]
      rw [this]
      exact hsep c hc.1 hc.2
    · have : T \ {a} ∪ P \ T = P \ {a} := by
        ext x
        simp only [Set.mem_union, Set.mem_diff, Set.mem_singleton_iff]
        constructor
        · rintro (⟨h1, h2⟩ | ⟨h1, h2⟩)
          · exact ⟨hTP h1, h2⟩
          · exact ⟨h1, fun e => h2 (e ▸ ha)⟩
        · rintro ⟨h1, h2⟩
          by_cases h3 : x ∈ T
          · exact Or.inl ⟨h3, h2⟩
          · exact Or.inr ⟨h1, h3⟩
      rw [this]
      exact hs
    · rintro (h | h)
      · exact hv (hTP h.1)
      · exact hv h.1
    · rintro (h | h)
      · exact h.2 rfl
      · exact h.2 ha
    · intro c hc h
      exact hc.2 h.1
  · rintro ⟨haP, hn⟩
    by_contra haT
    refine hn ?_
    have : P \ {a} = T ∪ (P \ T) \ {a} := by
      ext x
      simp only [Set.mem_union, Set.mem_diff, Set.mem_singleton_iff]
      constructor
      · rintro ⟨h1, h2⟩
        by_cases h3 : x ∈ T
        · exact Or.inl h3
        · exact Or.inr ⟨⟨h1, h3⟩, h2⟩
      · rintro (h | h)
        · exact ⟨hTP h, fun e => haT (e ▸ h)⟩
        · exact ⟨h.1.1, h.2⟩
    rw [this]
    refine dSep_union hac (hsep a haP haT) (fun c hc => hsep c hc.1.1 hc.1.2) ?_ ?_
    · rintro (h | h)
      · exact hv (hTP h)
      · exact hv h.1.1
    · rintro (h | h)
      · exact haT h
      · exact h.2 rfl

end Spec

namespace CL
namespace Perm
variable {p : Nat} {K : Type} [AddCommGroup K] [LinearOrder K]

/-- what the improving removals keep, `shrink` keeps -/
theorem shrinkLoop_inv {sc : Finset (Fin p) → K} {Inv : Finset (Fin p) → Prop}
    (hstep : ∀ S x, Inv S → x ∈ S → sc S < sc (S.erase x) → Inv (S.erase x)) (f : Nat) (parents rm : List (Fin p))
    (hnd : parents.Nodup) (h0 : Inv parents.toFinset) : Inv (shrinkLoop sc f parents (sc parents.toFinset) rm).1.toFinset := by
  induction f generalizing parents rm with
  | zero => exact h0
  | succ f ih =>
    have h1 := shrink_round sc parents [] (sc parents.toFinset) none
    obtain ⟨h2, h3, h4⟩ := shrink_round_spec sc parents [] (sc parents.toFinset) none (by simpa using hnd)
    simp only [List.append_nil, List.nil_append] at h1 h2 h3 h4
    simp only [shrinkLoop]
    rcases h4 with h4 | ⟨x, hx, h5, h6, h7⟩
    · rw [h4]
      simp only [Option.elim_none]
      rw [h1]
      exact h0
    · rw [h5]
      simp only [Option.elim_some]
      rw [h1, h6]
      have hset : (parents.erase x).toFinset = parents.toFinset.erase x := by
        ext y
        simp only [List.mem_toFinset, Finset.mem_erase]
        exact hnd.mem_erase_iff
      rw [← hset]
      refine ih (parents.erase x) (rm ++ [x]) (hnd.erase x) ?_
      rw [hset]
      rw [h6] at h7
      exact hstep _ x h0 (List.mem_toFinset.2 hx) h7

/-- a property that holds when no candidate of the prefix improves the score, and that improving removals keep, holds of the result -/
theorem traceAt_inv {sc : Finset (Fin p) → K} {Inv : Finset (Fin p) → Prop} {v : Fin p} {pre : List (Fin p)}
    (hgrow : ∀ S : Finset (Fin p), v ∉ S → (∀ c ∈ pre, c ≠ v → c ∉ S → sc (insert c S) ≤ sc S) → Inv S)
    (hstep : ∀ S x, Inv S → x ∈ S → sc S < sc (S.erase x) → Inv (S.erase x)) (f : Nat) (path avail : List (Fin p)) (T : Tree p K)
    (hT : ∀ q, path <+: q → T.branches q = none ∧ T.removed q = none)
    (hpa : (path ++ avail).Nodup) (hv : v ∉ path ++ avail) (hall : ∀ c ∈ pre, c ≠ v → c ∈ path ++ avail) (hf : avail.length < f) :
    Inv (traceAt sc pre f T path avail (sc path.toFinset)).2.2.toFinset := by
  induction f generalizing path avail T with
  | zero => omega
  | succ f ih =>
    have hnd := List.nodup_append.1 hpa
    simp only [traceAt]
    rw [(hT path (List.prefix_refl _)).1, (hT path (List.prefix_refl _)).2]
    simp only [Option.getD_none, Option.elim_none]
    cases hfind : (grow sc avail path (sc path.toFinset)).find? fun b => decide (b.1 ∈ pre) with
    | none =>
      simp only [Option.elim_none]
      refine shrinkLoop_inv hstep _ path [] hnd.1 (hgrow _ (by simpa using fun h => hv (List.mem_append_left _ h)) fun c hc hcv hcS => ?_)
      by_contra hlt
      rw [List.find?_eq_none] at hfind
      have hca : c ∈ avail := by
        rcases List.mem_append.1 (hall c hc hcv) with h | h
        · exact absurd (List.mem_toFinset.2 h) hcS
        · exact h
      have he : (path ++ [c]).toFinset = insert c path.toFinset := by
        ext y
        simp only [List.mem_toFinset, List.mem_append, List.mem_singleton, Finset.mem_insert]
        tauto
      refine hfind (c, sc (path ++ [c]).toFinset) (mem_grow.2 ⟨hca, rfl, ?_⟩) (by simpa using hc)
      rw [he]
      exact not_le.1 hlt
    | some b =>
      simp only [Option.elim_some]
      obtain ⟨g1, g2, g3⟩ := mem_grow.1 (List.mem_of_find?_eq_some hfind)
      have hbp : b.1 ∈ pre := by simpa using List.find?_some hfind
      generalize hsk : (grow sc avail path (sc path.toFinset)).takeWhile (fun b => decide (b.1 ∉ pre)) = sk
      have hsk' : ∀ x ∈ sk.map Prod.fst, x ∉ pre := by
        intro x hx
        obtain ⟨y, hy, rfl⟩ := List.mem_map.1 hx
        rw [← hsk] at hy
        simpa using List.mem_takeWhile_imp hy
      generalize hav : (sk.map Prod.fst ++ [b.1]).foldl List.erase avail = avail'
      have hmem : ∀ x, x ∈ avail' ↔ x ∈ avail ∧ x ∉ sk.map Prod.fst ++ [b.1] := by
        intro x
        rw [← hav, mem_foldl_erase hnd.2.1]
      have hnd' : avail'.Nodup := by rw [← hav]; exact nodup_foldl_erase hnd.2.1
      have hlen : avail'.length < avail.length := by
        have hs : avail' ⊆ avail.erase b.1 := fun x hx => by
          rw [hnd.2.1.mem_erase_iff]
          exact ⟨fun h => ((hmem x).1 hx).2 (by simp [h]), ((hmem x).1 hx).1⟩
        have := (List.subperm_of_subset hnd' hs).length_le
        rw [List.length_erase_of_mem g1] at this
        have := List.length_pos_of_mem g1
        omega
      rw [g2]
      have hTa : path ++ [b.1] ++ avail' ⊆ path ++ avail := by
        intro x hx
        rcases List.mem_append.1 hx with h | h
        · rcases List.mem_append.1 h with h | h
          · exact List.mem_append_left _ h
          · rw [List.mem_singleton.1 h]; exact List.mem_append_right _ g1
        · exact List.mem_append_right _ ((hmem x).1 h).1
      refine ih (path ++ [b.1]) avail' _ ?_ ?_ (fun h => hv (hTa h)) ?_ (by omega)
      · intro q hq
        have hpq : path <+: q := (List.prefix_append path [b.1]).trans hq
        refine ⟨?_, (hT q hpq).2⟩
        show (if q = path then _ else _) = _
        rw [if_neg]
        · exact (hT q hpq).1
        · rintro rfl
          have := hq.length_le
          simp at this
      · rw [List.append_assoc]
        refine List.nodup_append.2 ⟨hnd.1, ?_, fun a ha c hc => ?_⟩
        · rw [List.singleton_append, List.nodup_cons]
          exact ⟨fun h => ((hmem _).1 h).2 (by simp), hnd'⟩
        · rcases List.mem_append.1 hc with hc | hc
          · rw [List.mem_singleton.1 hc]; exact hnd.2.2 a ha _ g1
          · exact hnd.2.2 a ha c ((hmem c).1 hc).1
      · intro c hc hcv
        rcases List.mem_append.1 (hall c hc hcv) with h | h
        · exact List.mem_append_left _ (List.mem_append_left _ h)
        · by_cases hcb : c = b.1
          · exact List.mem_append_left _ (List.mem_append_right _ (by simp [hcb]))
          · refine List.mem_append_right _ ((hmem c).2 ⟨h, fun h' => ?_⟩)
            rcases List.mem_append.1 h' with h' | h'
            · exact hsk' c h' hc
            · exact hcb (List.mem_singleton.1 h')

variable [IsOrderedAddMonoid K] {sc : Fin p → Finset (Fin p) → K} {D : Fin p → Fin p → Prop}

/-- with a locally consistent score, the parents found separate the variable from the rest of the prefix -/
theorem trParents_sep (hc : LocallyConsistent (fun v S => - sc v S) D) {v : Fin p} {pre : List (Fin p)} :
    ∀ c ∈ pre, c ≠ v → c ∉ (trParents sc v pre).toFinset → DSep D ↑(trParents sc v pre).toFinset v c := by
  have := (traceAt_inv (sc := sc v) (v := v) (pre := pre)
    (Inv := fun S => v ∉ S ∧ ∀ c ∈ pre, c ≠ v → c ∉ S → DSep D ↑S v c) ?_ ?_ (p + 1) [] ((List.finRange p).filter (· ≠ v)) Tree.new
    (fun q _ => ⟨rfl, rfl⟩) (by simpa using (List.nodup_finRange p).filter _) (by simp) (by simp)
    (by
      have := List.length_filter_le (fun x => decide (x ≠ v)) (List.finRange p)
      simp only [List.length_finRange] at this
      omega)).2
  · exact this
  · intro S hvS hS
    refine ⟨hvS, fun c hc' hcv hcS => ?_⟩
    by_contra hcon
    have := (hc v c S (Ne.symm hcv) hvS hcS).1 hcon
    exact absurd (hS c hc' hcv hcS) (not_le.2 (neg_lt_neg_iff.1 this))
  · rintro S x ⟨hvS, hS⟩ hxS hlt
    have hvx : v ≠ x := fun e => hvS (e ▸ hxS)
    have hvS' : v ∉ S.erase x := fun h => hvS (Finset.mem_of_mem_erase h)
    have hx : DSep D ↑(S.erase x) v x := by
      by_contra hcon
      have := (hc v x (S.erase x) hvx hvS' (Finset.notMem_erase x S)).1 hcon
      rw [Finset.insert_erase hxS] at this
      exact lt_asymm hlt (neg_lt_neg_iff.1 this)
    refine ⟨hvS', fun c hc' hcv hcS => ?_⟩
    by_cases hcx : c = x
    · rw [hcx]; exact hx
    · have hs := hS c hc' hcv fun h => hcS (Finset.mem_erase.2 ⟨hcx, h⟩)
      refine dSep_contract (P := {x}) ?_ (by rintro _ rfl; exact hx)
      have : (↑(S.erase x) : Set (Fin p)) ∪ {x} = ↑S := by
        ext y
        by_cases hy : y = x <;> simp [hy, hxS]
      rw [this]
      exact hs

/-- with a locally consistent score, the parents found are the predecessors that depend on the variable given all other predecessors -/
theorem trParents_consistent (hD : Acyclic D) (hc : LocallyConsistent (fun v S => - sc v S) D) {v : Fin p} {pre : List (Fin p)} (hv : v ∉ pre) (a : Fin p) :
    a ∈ trParents sc v pre ↔ a ∈ pre ∧ ¬ DSep D ({x | x ∈ pre} \ {a}) v a := by
  obtain ⟨h1, h2, h3, -, h5⟩ := C61_trace_result sc v pre
  have hsep := trParents_sep (sc := sc) hc (v := v) (pre := pre)
  have hb := boundary_unique hD (v := v) (P := {x | x ∈ pre}) (T := {x | x ∈ trParents sc v pre}) hv (fun x hx => (h2 x hx).1)
    (fun c hcp hcT => by
      have := hsep c hcp (fun e => hv (e ▸ hcp)) (by simpa using hcT)
      simpa using this)
    (fun x hx hs => by
      have hxT : x ∈ (trParents sc v pre).toFinset := List.mem_toFinset.2 hx
      have hvT : v ∉ (trParents sc v pre).toFinset := fun h => (h2 v (List.mem_toFinset.1 h)).2 rfl
      have := (hc v x ((trParents sc v pre).toFinset.erase x) (Ne.symm (h2 x hx).2) (fun h => hvT (Finset.mem_of_mem_erase h))
        (Finset.notMem_erase _ _)).2 (by
          have e : (↑((trParents sc v pre).toFinset.erase x) : Set (Fin p)) = {x | x ∈ trParents sc v pre} \ {x} := by
            ext y
            simp [and_comm]
          rw [e]
          exact hs)
      rw [Finset.insert_erase hxT] at this
      exact absurd (h5 x hx) (not_le.2 (by rw [h3]; exact neg_lt_neg_iff.1 this))) a
  exact hb

end Perm
end CL
