import Verif.Lemmas.UniInv

/-! Universal conditional SAM: what is made of the quantified candidates. -/
namespace Model
open Spec

/-- The effect made for a literal with the candidates `cs`. -/
def quantOf (O : Finset Lit) (cs : List (Finset Lit)) (l : Lit) : List CondEff :=
  if l ∈ O then [⟨unionAll cs, {l}⟩] else []

section
variable {add : Cond → Cond → Cond} {deep : Bool} {ord : LitOrd} (hadd : AddOK add) (ho : EnumNodup ord)
include hadd ho

theorem verifyU_spec {U : UniLearner} {a t v : String} {d : DepSet} {l : Lit} {cs : List (Finset Lit)}
    (hl : d.possible.lookup l = some cs) (hne : ∀ c ∈ cs, c ≠ ∅) :
    ∃ U' r, U.verifyU add deep ord a t v d l = .ok U' ∧ SameBase a U U' ∧ U'.q = U.q ∧
      U'.ueffs a t = U.ueffs a t ++ quantOf (U.obsU a t) cs l ∧ (∀ t', t' ≠ t → U'.ueffs a t' = U.ueffs a t') ∧
      (2 ≤ cs.length → d.restrictive add ord (U.preLits deep a) l (decide (l ∈ U.obsU a t)) = .ok r) ∧
      U'.uconds a = U.uconds a ++ if 2 ≤ cs.length then [⟨v, t, r⟩] else [] := by
  by_cases h2 : 2 ≤ cs.length
  · obtain ⟨r, hr, _⟩ := restrictive_spec hadd ho.mem d (U.preLits deep a) l (decide (l ∈ U.obsU a t)) cs hl hne
    have hsafe : decide (cs.length ≤ 1) = false := by simp; omega
    simp only [if_pos h2]
    by_cases hob : l ∈ U.obsU a t
    · have hre : restrictiveEffect d l = .ok ⟨unionAll cs, {l}⟩ := by
        simp [restrictiveEffect, hl, condEffectData, DepSet.safeAntecedents, Bind.bind, Except.bind]
      have hv : U.verifyU add deep ord a t v d l = .ok { U with
          uconds := Function.update U.uconds a (U.uconds a ++ [⟨v, t, r⟩])
          ueffs := update2 U.ueffs a t (U.ueffs a t ++ [⟨unionAll cs, {l}⟩]) } := by
        unfold UniLearner.verifyU
        simp only [DepSet.isSafe, hl, Bind.bind, Except.bind, hsafe, Bool.not_false, if_true, hr, hob, decide_true, hre]
        rw [decide_eq_true hob] at hr
        rw [hr]
      exact ⟨_, r, hv, verifyU_base hv, rfl, by simp [update2, quantOf, hob], fun t' ht => by simp [update2, ht], fun _ => hr, by simp⟩
    · have hv : U.verifyU add deep ord a t v d l = .ok { U with
          uconds := Function.update U.uconds a (U.uconds a ++ [⟨v, t, r⟩]) } := by
        unfold UniLearner.verifyU
        simp only [DepSet.isSafe, hl, Bind.bind, Except.bind, hsafe, Bool.not_false, if_true, hob, decide_false, Bool.false_eq_true, if_false]
        rw [decide_eq_false hob] at hr
        rw [hr]
      exact ⟨_, r, hv, verifyU_base hv, rfl, by simp [quantOf, hob], fun t' ht => rfl, fun _ => hr, by simp⟩
  · have hsafe : decide (cs.length ≤ 1) = true := by simp; omega
    simp only [if_neg h2]
    by_cases hob : l ∈ U.obsU a t
    · have hre : condEffectData d l = .ok ⟨unionAll cs, {l}⟩ := by
        match cs, h2 with
        | [], _ => simp [hl, condEffectData, DepSet.safeAntecedents, Bind.bind, Except.bind, unionAll]
        | [A], _ => simp [hl, condEffectData, DepSet.safeAntecedents, Bind.bind, Except.bind, unionAll]
        | A :: B :: t, h2 => simp at h2
      have hv : U.verifyU add deep ord a t v d l = .ok { U with
          ueffs := update2 U.ueffs a t (U.ueffs a t ++ [⟨unionAll cs, {l}⟩]) } := by
        unfold UniLearner.verifyU
        simp only [DepSet.isSafe, hl, Bind.bind, Except.bind, hsafe, Bool.not_true, Bool.false_eq_true, if_false, if_true, hob, decide_true, hre]
      exact ⟨_, none, hv, verifyU_base hv, rfl, by simp [update2, quantOf, hob], fun t' ht => by simp [update2, ht], fun h => absurd h h2, by simp⟩
    · have hv : U.verifyU add deep ord a t v d l = .ok U := by
        unfold UniLearner.verifyU
        simp only [DepSet.isSafe, hl, Bind.bind, Except.bind, hsafe, Bool.not_true, Bool.false_eq_true, if_false, hob, decide_false]
      exact ⟨_, none, hv, verifyU_base hv, rfl, by simp [quantOf, hob], fun t' ht => rfl, fun h => absurd h h2, by simp⟩

/-- The conditions of one type. -/
def CondsOf (add : Cond → Cond → Cond) (deep : Bool) (ord : LitOrd) (P : Finset Lit) (pres : List UPre) (d : DepSet) (v t : String)
    (O : Finset Lit) (l : Lit) : Prop :=
  ∃ j < pres.length, ∃ r, d.restrictive add ord (P ∪ if deep then upreLits (pres.take j) else ∅) l (decide (l ∈ O)) = .ok r ∧
    (⟨v, t, r⟩ : UPre) ∈ pres

/-- A condition made of a literal. -/
def CondFrom (add : Cond → Cond → Cond) (deep : Bool) (ord : LitOrd) (P : Finset Lit) (pres : List UPre) (d : DepSet) (O : Finset Lit)
    (l : Lit) (r : Option Cond) : Prop :=
  ∃ j < pres.length, d.restrictive add ord (P ∪ if deep then upreLits (pres.take j) else ∅) l (decide (l ∈ O)) = .ok r

omit hadd ho in
theorem CondFrom.mono {P : Finset Lit} {pres more : List UPre} {d : DepSet} {O : Finset Lit} {l : Lit} {r : Option Cond}
    (h : CondFrom add deep ord P pres d O l r) : CondFrom add deep ord P (pres ++ more) d O l r := by
  obtain ⟨j, h1, h2⟩ := h
  refine ⟨j, by rw [List.length_append]; omega, ?_⟩
  rw [List.take_append_of_le_length (Nat.le_of_lt h1)]
  exact h2

omit hadd ho in
theorem CondsOf.mono {P : Finset Lit} {pres more : List UPre} {d : DepSet} {v t : String} {O : Finset Lit} {l : Lit}
    (h : CondsOf add deep ord P pres d v t O l) : CondsOf add deep ord P (pres ++ more) d v t O l := by
  obtain ⟨j, h1, r, h2, h3⟩ := h
  refine ⟨j, by rw [List.length_append]; omega, r, ?_, List.mem_append_left _ h3⟩
  rw [List.take_append_of_le_length (Nat.le_of_lt h1)]
  exact h2

/-- The loop over the literals of one type. -/
theorem verifyUFold_spec {a t v : String} {d : DepSet} (cands : Lit → List (Finset Lit)) : ∀ (ks : List Lit) (U : UniLearner),
    (∀ l ∈ ks, d.possible.lookup l = some (cands l)) → (∀ l ∈ ks, ∀ c ∈ cands l, c ≠ ∅) →
    ∃ U' more, ks.foldlM (UniLearner.verifyU add deep ord a t v d) U = .ok U' ∧ SameBase a U U' ∧ U'.q = U.q ∧
      U'.ueffs a t = U.ueffs a t ++ ks.flatMap (fun l => quantOf (U.obsU a t) (cands l) l) ∧
      (∀ t', t' ≠ t → U'.ueffs a t' = U.ueffs a t') ∧ U'.uconds a = U.uconds a ++ more ∧
      (∀ u ∈ more, u.var = v ∧ u.type = t ∧ ∃ l ∈ ks, 2 ≤ (cands l).length ∧
        CondFrom add deep ord (U.base.preLits a) (U'.uconds a) d (U.obsU a t) l u.cond) ∧
      ∀ l ∈ ks, 2 ≤ (cands l).length → CondsOf add deep ord (U.base.preLits a) (U'.uconds a) d v t (U.obsU a t) l := by
  intro ks
  induction ks with
  | nil => intro U _ _; exact ⟨U, [], rfl, SameBase.refl a U, rfl, by simp, fun _ _ => rfl, by simp, by simp, by simp⟩
  | cons l ks ih =>
    intro U hl hne
    obtain ⟨U1, r, e1, e2, e3, e4, e5, e6, e7⟩ := verifyU_spec (deep := deep) (U := U) (a := a) (t := t) (v := v) hadd ho (hl l (by simp)) (hne l (by simp))
    obtain ⟨U2, more, f1, f2, f3, f4, f5, f6, f7, f8⟩ := ih U1 (fun x hx => hl x (by simp [hx])) (fun x hx => hne x (by simp [hx]))
    refine ⟨U2, (if 2 ≤ (cands l).length then [⟨v, t, r⟩] else []) ++ more, ?_, e2.trans f2, f3.trans e3, ?_, ?_, ?_, ?_, ?_⟩
    · rw [List.foldlM_cons, e1]; exact f1
    · rw [f4, e4, e2.obsU]; simp
    · intro t' ht; rw [f5 t' ht, e5 t' ht]
    · rw [f6, e7, List.append_assoc]
    · intro u hu
      rcases List.mem_append.mp hu with hu | hu
      · split at hu
        · rename_i h2
          rw [List.mem_singleton] at hu; subst hu
          refine ⟨rfl, rfl, l, by simp, h2, ?_⟩
          rw [f6]
          apply CondFrom.mono
          refine ⟨(U.uconds a).length, by rw [e7, if_pos h2]; simp, ?_⟩
          rw [e7, List.take_append_of_le_length le_rfl, List.take_length]
          exact e6 h2
        · simp at hu
      · obtain ⟨g1, g2, x, g3, g4, g5⟩ := f7 u hu
        rw [e2.base, e2.obsU] at g5
        exact ⟨g1, g2, x, by simp [g3], g4, g5⟩
    · intro x hx hx2
      rcases List.mem_cons.mp hx with rfl | hx
      · rw [f6]
        apply CondsOf.mono
        refine ⟨(U.uconds a).length, by rw [e7, if_pos hx2]; simp, r, ?_, by rw [e7, if_pos hx2]; simp⟩
        rw [e7, List.take_append_of_le_length le_rfl, List.take_length]
        exact e6 hx2
      · have := f8 x hx hx2
        rwa [e2.base, e2.obsU] at this

/-- What is made of the candidates `d` of one type. -/
structure QBuilt (add : Cond → Cond → Cond) (deep : Bool) (ord : LitOrd) (P : Finset Lit) (pres : List UPre) (d : DepSet) (v t : String)
    (O : Finset Lit) (effs : List CondEff) : Prop where
  fires : ∀ ρ s l, l ∈ fired effs ρ s ↔ ∃ cs, d.possible.lookup l = some cs ∧ l ∈ O ∧ applicable (unionAll cs) ρ s
  results : ∀ e ∈ effs, ∀ l ∈ e.res, l ∈ O ∧ ∃ cs, d.possible.lookup l = some cs ∧ e.ante = unionAll cs
  conds : ∀ l cs, d.possible.lookup l = some cs → 2 ≤ cs.length → CondsOf add deep ord P pres d v t O l

omit hadd ho in
theorem compress_ante_res {es : List CondEff} {e : CondEff} {l : Lit} (h : e ∈ compress es) (hl : l ∈ e.res) :
    ∃ o ∈ es, o.ante = e.ante ∧ l ∈ o.res := by
  induction hn : es.length using Nat.strong_induction_on generalizing es e with
  | _ n ih =>
    cases es with
    | nil => simp [compress] at h
    | cons x es =>
      unfold compress at h
      rcases List.mem_cons.mp h with rfl | h
      · simp only [Finset.mem_union, mem_unionAll, List.mem_map, List.mem_filter, decide_eq_true_eq] at hl
        rcases hl with hl | ⟨_, ⟨o, ⟨h1, h2⟩, rfl⟩, h3⟩
        · exact ⟨x, by simp, rfl, hl⟩
        · exact ⟨o, by simp [h1], h2, h3⟩
      · obtain ⟨o, h1, h2⟩ := ih _ (by
          rw [← hn, List.length_cons]; exact Nat.lt_succ_of_le (List.length_filter_le _ _)) h hl rfl
        exact ⟨o, by simp [(List.mem_filter.mp h1).1], h2⟩

/-- The loop over the types. -/
theorem verifyTypes_spec {a : String} (ds : String → DepSet) : ∀ (tvs : List (String × String)) (U : UniLearner), (tvs.map Prod.fst).Nodup →
    (∀ tv ∈ tvs, U.q a tv.1 = some (ds tv.1) ∧ (ds tv.1).OK ∧ ((ds tv.1).possible.map Prod.fst).Nodup ∧ U.ueffs a tv.1 = []) →
    ∃ U' more, tvs.foldlM (UniLearner.verifyType add deep ord a) U = .ok U' ∧ SameBase a U U' ∧ U'.q = U.q ∧
      (∀ t', t' ∉ tvs.map Prod.fst → U'.ueffs a t' = U.ueffs a t') ∧ U'.uconds a = U.uconds a ++ more ∧
      (∀ u ∈ more, ∃ tv ∈ tvs, u.var = tv.2 ∧ u.type = tv.1 ∧ ∃ l cs, (ds tv.1).possible.lookup l = some cs ∧ 2 ≤ cs.length ∧
        CondFrom add deep ord (U.base.preLits a) (U'.uconds a) (ds tv.1) (U.obsU a tv.1) l u.cond) ∧
      ∀ tv ∈ tvs, QBuilt add deep ord (U.base.preLits a) (U'.uconds a) (ds tv.1) tv.2 tv.1 (U.obsU a tv.1) (compress (U'.ueffs a tv.1)) := by
  intro tvs
  induction tvs with
  | nil => intro U _ _; exact ⟨U, [], rfl, SameBase.refl a U, rfl, fun _ _ => rfl, by simp, by simp, by simp⟩
  | cons tv tvs ih =>
    intro U hnd h
    rw [List.map_cons, List.nodup_cons] at hnd
    obtain ⟨hq, hok, hkn, hu0⟩ := h tv (by simp)
    let cands : Lit → List (Finset Lit) := fun l => ((ds tv.1).possible.lookup l).getD []
    have hlk : ∀ l ∈ (ds tv.1).possible.map Prod.fst, (ds tv.1).possible.lookup l = some (cands l) := by
      intro l hl
      obtain ⟨cs, hcs⟩ : ∃ cs, (ds tv.1).possible.lookup l = some cs := by
        obtain ⟨p, hp, rfl⟩ := List.mem_map.mp hl
        exact ⟨p.2, lookup_of_mem_nodup hkn hp⟩
      simp only [cands, hcs, Option.getD_some]
    obtain ⟨U1, m1, e1, e2, e3, e4, e5, e6, e7, e8⟩ := verifyUFold_spec (deep := deep) (a := a) (t := tv.1) (v := tv.2) hadd ho cands
      ((ds tv.1).possible.map Prod.fst) U hlk (fun l hl c hc => ((hok l _ (hlk l hl)).bounds c hc).1)
    have hv : U.verifyType add deep ord a tv = .ok U1 := by
      unfold UniLearner.verifyType
      rw [hq]; exact e1
    obtain ⟨U2, m2, f1, f2, f3, f4, f5, f6, f7⟩ := ih U1 hnd.2 (by
      intro x hx
      obtain ⟨g1, g2, g3, g4⟩ := h x (by simp [hx])
      have hne : x.1 ≠ tv.1 := fun e => hnd.1 (e ▸ List.mem_map.mpr ⟨x, hx, rfl⟩)
      exact ⟨by rw [e3]; exact g1, g2, g3, by rw [e5 _ hne]; exact g4⟩)
    refine ⟨U2, m1 ++ m2, ?_, e2.trans f2, f3.trans e3, ?_, ?_, ?_, ?_⟩
    · rw [List.foldlM_cons, hv]; exact f1
    · intro t' ht
      rw [List.map_cons, List.mem_cons, not_or] at ht
      rw [f4 t' ht.2, e5 t' ht.1]
    · rw [f5, e6, List.append_assoc]
    · intro u hu
      rcases List.mem_append.mp hu with hu | hu
      · obtain ⟨g1, g2, l, g3, g4, g5⟩ := e7 u hu
        refine ⟨tv, by simp, g1, g2, l, _, hlk l g3, g4, ?_⟩
        rw [f5]; exact g5.mono
      · obtain ⟨x, hx, g⟩ := f6 u hu
        rw [e2.base, e2.obsU] at g
        exact ⟨x, by simp [hx], g⟩
    · intro x hx
      rcases List.mem_cons.mp hx with rfl | hx
      · have hue : U2.ueffs a x.1 = ((ds x.1).possible.map Prod.fst).flatMap fun l => quantOf (U.obsU a x.1) (cands l) l := by
          rw [f4 _ hnd.1, e4, hu0, List.nil_append]
        have hmem : ∀ e, e ∈ U2.ueffs a x.1 ↔ ∃ l cs, (ds x.1).possible.lookup l = some cs ∧ l ∈ U.obsU a x.1 ∧ e = ⟨unionAll cs, {l}⟩ := by
          intro e
          rw [hue, List.mem_flatMap]
          constructor
          · rintro ⟨l, h1, h2⟩
            unfold quantOf at h2
            split at h2
            · rename_i hob
              rw [List.mem_singleton] at h2
              exact ⟨l, _, hlk l h1, hob, h2⟩
            · simp at h2
          · rintro ⟨l, cs, h1, h2, rfl⟩
            refine ⟨l, keys_of_lookup h1, ?_⟩
            have : cands l = cs := by simp only [cands, h1, Option.getD_some]
            rw [this]
            simp [quantOf, h2]
        refine ⟨fun ρ s l => ?_, fun e he l hl => ?_, fun l cs h1 h2 => ?_⟩
        · rw [fired_compress, mem_fired]
          constructor
          · rintro ⟨e, h1, h2, h3⟩
            obtain ⟨l', cs, g1, g2, rfl⟩ := (hmem e).mp h1
            rw [Finset.mem_singleton] at h3; subst h3
            exact ⟨cs, g1, g2, h2⟩
          · rintro ⟨cs, h1, h2, h3⟩
            exact ⟨_, (hmem _).mpr ⟨l, cs, h1, h2, rfl⟩, h3, by simp⟩
        · obtain ⟨o, h1, h2, h3⟩ := compress_ante_res he hl
          obtain ⟨l', cs, g1, g2, rfl⟩ := (hmem o).mp h1
          rw [Finset.mem_singleton] at h3; subst h3
          exact ⟨g2, cs, g1, h2.symm⟩
        · rw [f5]
          apply CondsOf.mono
          have hc : cands l = cs := by simp only [cands, h1, Option.getD_some]
          exact e8 l (keys_of_lookup h1) (by rw [hc]; exact h2)
      · have := f7 x hx
        rwa [e2.base, e2.obsU] at this

end
end Model
