import Verif.Lemmas.CondInv

/-! Closed form of what `construct_safe_actions` makes of one action. -/
namespace Model
open Spec

/-- Only the effects, added conditions, conditional effects and dependencies of `a` may differ. -/
structure Touch (a : String) (K K' : CondLearner) : Prop where
  static : SameStatic K.base.dom K'.base.dom
  acts : ∀ b, b ≠ a → K'.base.dom.act b = K.base.dom.act b
  conds : ∀ b, b ≠ a → K'.conds b = K.conds b
  condEffs : ∀ b, b ≠ a → K'.condEffs b = K.condEffs b
  deps : ∀ b, b ≠ a → K'.deps b = K.deps b
  pre : (K'.base.dom.act a).pre = (K.base.dom.act a).pre
  ineq : (K'.base.dom.act a).ineq = (K.base.dom.act a).ineq
  observed : K'.base.observed = K.base.observed
  safe : K'.base.safe = K.base.safe
  cannotBe : K'.base.cannotBe = K.base.cannotBe
  obsEff : K'.obsEff = K.obsEff
  max : K'.maxAnte = K.maxAnte

theorem Touch.refl (a : String) (K : CondLearner) : Touch a K K :=
  ⟨SameStatic.refl _, fun _ _ => rfl, fun _ _ => rfl, fun _ _ => rfl, fun _ _ => rfl, rfl, rfl, rfl, rfl, rfl, rfl, rfl⟩

theorem Touch.trans {a : String} {K K' K'' : CondLearner} (h : Touch a K K') (k : Touch a K' K'') : Touch a K K'' :=
  ⟨h.static.trans k.static, fun b hb => (k.acts b hb).trans (h.acts b hb), fun b hb => (k.conds b hb).trans (h.conds b hb),
   fun b hb => (k.condEffs b hb).trans (h.condEffs b hb), fun b hb => (k.deps b hb).trans (h.deps b hb),
   k.pre.trans h.pre, k.ineq.trans h.ineq, k.observed.trans h.observed, k.safe.trans h.safe,
   k.cannotBe.trans h.cannotBe, k.obsEff.trans h.obsEff, k.max.trans h.max⟩

/-- The plain effect found for a literal with candidates `cs`. -/
def simpleOf (obs : Finset Lit) (cs : List (Finset Lit)) (l : Lit) : Finset Lit :=
  if l ∈ obs ∧ cs.length = 0 then {l} else ∅
/-- The conditional effect collected for a literal with candidates `cs`. -/
def collOf (obs : Finset Lit) (cs : List (Finset Lit)) (l : Lit) : List CondEff :=
  match cs with
  | [A] => if l ∈ obs then [⟨A, {l}⟩] else []
  | _ => []
/-- The restrictive effect for a literal with candidates `cs`. -/
def restrOf (obs : Finset Lit) (cs : List (Finset Lit)) (l : Lit) : List CondEff :=
  if l ∈ obs ∧ 2 ≤ cs.length then [⟨unionAll cs, {l}⟩] else []

section
variable {add : Cond → Cond → Cond} {ord : LitOrd} (hadd : AddOK add) (ho : EnumNodup ord)
include hadd ho

theorem verify_spec {K : CondLearner} {a : String} {d : DepSet} {l : Lit} {cs : List (Finset Lit)}
    (hl : d.possible.lookup l = some cs) (hne : ∀ c ∈ cs, c ≠ ∅) (hcb : K.base.cannotBe a = ∅) :
    ∃ K' r, K.verify add ord a d l = .ok (K', (collOf (K.obsEff a) cs l).head?) ∧ Touch a K K' ∧ K'.deps = K.deps ∧
      (if 2 ≤ cs.length then d.restrictive add ord (K.preLits a) l (decide (l ∈ K.obsEff a)) = .ok r else r = none) ∧
      K'.conds a = K.conds a ++ r.toList ∧
      K'.condEffs a = K.condEffs a ++ restrOf (K.obsEff a) cs l ∧
      (K'.base.dom.act a).eff = (K.base.dom.act a).eff ∪ simpleOf (K.obsEff a) cs l := by
  by_cases h2 : 2 ≤ cs.length
  · obtain ⟨r, hr, _⟩ := restrictive_spec hadd ho.mem d (K.preLits a) l (decide (l ∈ K.obsEff a)) cs hl hne
    have hcoll : (collOf (K.obsEff a) cs l) = [] := by
      unfold collOf; split
      · simp at h2
      · rfl
    have hs : simpleOf (K.obsEff a) cs l = ∅ := by
      unfold simpleOf; rw [if_neg]; omega
    have hsafe : decide (cs.length ≤ 1) = false := by simp; omega
    simp only [if_pos h2]
    let K1 : CondLearner := match r with
      | none => K
      | some c => { K with conds := Function.update K.conds a (K.conds a ++ [c]) }
    have hK1 : K.addRestrictive add ord a d l = .ok K1 := by
      unfold CondLearner.addRestrictive
      simp only [bind, Except.bind, hr]
      cases r <;> rfl
    have ht : Touch a K K1 := by
      cases r with
      | none => exact Touch.refl a K
      | some c =>
        exact ⟨SameStatic.refl _, fun _ _ => rfl, fun b hb => by simp [K1, Function.update_apply, hb], fun _ _ => rfl,
          fun _ _ => rfl, rfl, rfl, rfl, rfl, rfl, rfl, rfl⟩
    have hc1 : K1.conds a = K.conds a ++ r.toList := by cases r <;> simp [K1]
    have hce : K1.condEffs = K.condEffs := by cases r <;> rfl
    have hde : K1.deps = K.deps := by cases r <;> rfl
    have hdo : K1.base = K.base := by cases r <;> rfl
    have hoe : K1.obsEff = K.obsEff := ht.obsEff
    by_cases hob : l ∈ K.obsEff a
    · have hre : restrictiveEffect d l = .ok ⟨unionAll cs, {l}⟩ := by
        simp [restrictiveEffect, hl, condEffectData, DepSet.safeAntecedents, bind, Except.bind]
      refine ⟨{ K1 with condEffs := Function.update K1.condEffs a (K1.condEffs a ++ [⟨unionAll cs, {l}⟩]) }, r,
        ?_, ?_, hde, hr, hc1, ?_, ?_⟩
      · unfold CondLearner.verify
        simp only [DepSet.isSafe, hl, bind, Except.bind, hsafe, Bool.not_false, if_true, hK1, hoe, hob,
          not_true_eq_false, if_false, hre, hcoll]
        rfl
      · exact ht.trans ⟨SameStatic.refl _, fun _ _ => rfl, fun _ _ => rfl,
          fun b hb => by simp [Function.update_apply, hb], fun _ _ => rfl, rfl, rfl, rfl, rfl, rfl, rfl, rfl⟩
      · simp [hce, restrOf, hob, h2]
      · simp [hdo, hs]
    · refine ⟨K1, r, ?_, ht, hde, hr, hc1, ?_, ?_⟩
      · unfold CondLearner.verify
        simp only [DepSet.isSafe, hl, bind, Except.bind, hsafe, Bool.not_false, if_true, hK1, hoe, hob,
          not_false_eq_true, hcoll]
        rfl
      · simp [hce, restrOf, hob]
      · simp [hdo, hs]
  · have hsafe : decide (cs.length ≤ 1) = true := by simp; omega
    have hr0 : restrOf (K.obsEff a) cs l = [] := by simp [restrOf, h2]
    simp only [if_neg h2, hr0]
    by_cases hob : l ∈ K.obsEff a
    · match cs, h2 with
      | [], _ =>
        refine ⟨K.addSimple a l, none, ?_, ?_, ?_, rfl, ?_, ?_, ?_⟩
        · unfold CondLearner.verify
          simp [DepSet.isSafe, hl, bind, Except.bind, hob, DepSet.isSafeCond, collOf]
        all_goals simp only [CondLearner.addSimple, hcb, Finset.notMem_empty, if_false]
        · refine ⟨sameStatic_setAct rfl, fun b hb => ?_, fun _ _ => rfl, fun _ _ => rfl, fun _ _ => rfl, ?_, ?_,
            rfl, rfl, rfl, rfl, rfl⟩
          · simp [setAct_act, hb]
          · simp [setAct_act]
          · simp [setAct_act]
        · simp
        · simp
        · simp [setAct_act, simpleOf, hob]
      | [A], _ =>
        refine ⟨K, none, ?_, Touch.refl a K, rfl, rfl, by simp, by simp, by simp [simpleOf]⟩
        unfold CondLearner.verify
        simp [DepSet.isSafe, hl, bind, Except.bind, hob, DepSet.isSafeCond, collOf, condEffectData, DepSet.safeAntecedents]
      | A :: B :: t, h2 => simp at h2
    · refine ⟨K, none, ?_, Touch.refl a K, rfl, rfl, by simp, by simp, by simp [simpleOf, hob]⟩
      unfold CondLearner.verify
      simp only [DepSet.isSafe, hl, bind, Except.bind, hsafe, Bool.not_true, Bool.false_eq_true, if_false, hob,
        not_false_eq_true, if_true]
      unfold collOf
      split <;> simp [hob]

/-- The loop over the possible results. -/
theorem verifyFold_spec {K : CondLearner} {a : String} {d : DepSet} (cands : Lit → List (Finset Lit))
    (hcb : K.base.cannotBe a = ∅) (hc0 : K.conds a = []) (he0 : K.condEffs a = []) (ks : List Lit) (hks : ks.Nodup)
    (hl : ∀ l ∈ ks, d.possible.lookup l = some (cands l)) (hne : ∀ l ∈ ks, ∀ c ∈ cands l, c ≠ ∅) :
    ∃ K', ks.foldlM (CondLearner.verifyStep add ord a d) (K, []) =
        .ok (K', ks.flatMap fun l => collOf (K.obsEff a) (cands l) l) ∧
      Touch a K K' ∧ K'.deps = K.deps ∧
      K'.condEffs a = ks.flatMap (fun l => restrOf (K.obsEff a) (cands l) l) ∧
      (∀ l, l ∈ (K'.base.dom.act a).eff ↔ l ∈ (K.base.dom.act a).eff ∨
        (l ∈ ks ∧ l ∈ K.obsEff a ∧ (cands l).length = 0)) ∧
      (∀ c ∈ K'.conds a, ∃ l ∈ ks, 2 ≤ (cands l).length ∧ ∃ j,
        d.restrictive add ord ((K.base.dom.act a).pre ∪ (Cond.litsAll ((K'.conds a).take j)).toFinset) l
          (decide (l ∈ K.obsEff a)) = .ok (some c) ∧ (j = 0 ∨ ∃ l' ∈ ks, l' ≠ l ∧ 2 ≤ (cands l').length)) ∧
      ∀ l ∈ ks, 2 ≤ (cands l).length → ∃ j r,
        d.restrictive add ord ((K.base.dom.act a).pre ∪ (Cond.litsAll ((K'.conds a).take j)).toFinset) l
          (decide (l ∈ K.obsEff a)) = .ok r ∧ (∀ c ∈ r.toList, c ∈ K'.conds a) ∧
        (j = 0 ∨ ∃ l' ∈ ks, l' ≠ l ∧ 2 ≤ (cands l').length) := by
  induction ks using List.reverseRecOn with
  | nil => exact ⟨K, rfl, Touch.refl a K, rfl, by simp [he0], by simp, by simp [hc0], by simp⟩
  | append_singleton ks l ih =>
    have hnd := List.nodup_append.mp hks
    obtain ⟨K1, h1, h2, h3, h4, h5, h6, h7⟩ := ih hnd.1 (fun x hx => hl x (by simp [hx])) (fun x hx => hne x (by simp [hx]))
    obtain ⟨K2, r, g1, g2, g3, g4, g5, g6, g7⟩ := verify_spec hadd ho (K := K1) (a := a) (hl l (by simp)) (hne l (by simp))
      (by rw [h2.cannotBe, hcb])
    rw [h2.obsEff] at g1 g4 g6 g7
    have hprev : (K1.conds a).length = 0 ∨ ∃ l' ∈ ks ++ [l], l' ≠ l ∧ 2 ≤ (cands l').length := by
      by_cases hk : K1.conds a = []
      · left; simp [hk]
      · obtain ⟨c, hc⟩ := List.exists_mem_of_ne_nil _ hk
        obtain ⟨y, hy, hy2, _⟩ := h6 c hc
        refine Or.inr ⟨y, by simp [hy], ?_, hy2⟩
        rintro rfl
        exact hnd.2.2 _ hy _ (by simp) rfl
    refine ⟨K2, ?_, h2.trans g2, g3.trans h3, ?_, ?_, ?_, ?_⟩
    · rw [List.foldlM_append, h1]
      simp only [bind, Except.bind, List.foldlM_cons, List.foldlM_nil, CondLearner.verifyStep, g1, List.flatMap_append,
        List.flatMap_cons, List.flatMap_nil, List.append_nil]
      have : (collOf (K.obsEff a) (cands l) l).head?.toList = collOf (K.obsEff a) (cands l) l := by
        unfold collOf; split
        · split <;> rfl
        · rfl
      rw [this]; rfl
    · rw [g6, h4]; simp
    · intro x
      rw [g7, Finset.mem_union, h5]
      simp only [List.mem_append, List.mem_singleton, simpleOf]
      constructor
      · rintro ((h | h) | h)
        · exact Or.inl h
        · exact Or.inr ⟨Or.inl h.1, h.2⟩
        · split at h
          · rename_i hh; rw [Finset.mem_singleton] at h; subst h; exact Or.inr ⟨Or.inr rfl, hh⟩
          · simp at h
      · rintro (h | ⟨h | rfl, h'⟩)
        · exact Or.inl (Or.inl h)
        · exact Or.inl (Or.inr ⟨h, h'⟩)
        · right; rw [if_pos h']; simp
    · intro c hc
      rw [g5, List.mem_append] at hc
      rcases hc with hc | hc
      · obtain ⟨x, hx, hx2, j, e1, e3⟩ := h6 c hc
        refine ⟨x, by simp [hx], hx2, min j (K1.conds a).length, ?_, ?_⟩
        · rw [g5, List.take_append_of_le_length (min_le_right _ _), ← List.take_take, List.take_length]; exact e1
        · rcases e3 with e3 | ⟨y, hy, hy'⟩
          · left; rw [e3]; exact Nat.zero_min _
          · exact Or.inr ⟨y, by simp [hy], hy'⟩
      · by_cases hl2 : 2 ≤ (cands l).length
        · rw [if_pos hl2] at g4
          rw [Option.mem_toList] at hc
          subst hc
          refine ⟨l, by simp, hl2, (K1.conds a).length, ?_, hprev⟩
          rw [g5, List.take_append_of_le_length le_rfl, List.take_length]
          rw [← h2.pre]; exact g4
        · rw [if_neg hl2] at g4; subst g4
          simp at hc
    · intro x hx hx2
      rw [List.mem_append, List.mem_singleton] at hx
      rcases hx with hx | rfl
      · obtain ⟨j, r', e1, e2, e3⟩ := h7 x hx hx2
        by_cases hj : j ≤ (K1.conds a).length
        · refine ⟨j, r', ?_, fun c hc => by rw [g5]; simp [e2 c hc], ?_⟩
          · rw [g5, List.take_append_of_le_length hj]; exact e1
          · rcases e3 with e3 | ⟨y, hy, hy'⟩
            · exact Or.inl e3
            · exact Or.inr ⟨y, by simp [hy], hy'⟩
        · refine ⟨(K1.conds a).length, r', ?_, fun c hc => by rw [g5]; simp [e2 c hc], ?_⟩
          · rw [g5, List.take_append_of_le_length le_rfl, List.take_length]
            rw [List.take_of_length_le (by omega)] at e1; exact e1
          · rcases e3 with e3 | ⟨y, hy, hy'⟩
            · omega
            · exact Or.inr ⟨y, by simp [hy], hy'⟩
      · rw [if_pos hx2] at g4
        refine ⟨(K1.conds a).length, r, ?_, fun c hc => by rw [g5]; simp [Option.mem_toList.mp hc], ?_⟩
        · rw [g5, List.take_append_of_le_length le_rfl, List.take_length]
          rw [← h2.pre]; exact g4
        · exact hprev

/-- What the construction makes of an action with learned precondition literals `P`, observed effects `obs` and
dependency set `d` (after the precondition literals were removed from it). -/
structure Built (add : Cond → Cond → Cond) (ord : LitOrd) (d : DepSet) (P obs : Finset Lit)
    (eff : Finset Lit) (conds : List Cond) (condEffs : List CondEff) : Prop where
  eff : ∀ l, l ∈ eff ↔ ∃ cs, d.possible.lookup l = some cs ∧ l ∈ obs ∧ cs.length = 0
  fires : ∀ ρ s l, l ∈ fired condEffs ρ s →
    ∃ cs, d.possible.lookup l = some cs ∧ l ∈ obs ∧ applicable (unionAll cs) ρ s ∧ cs ≠ []
  kept : ∀ l A, d.possible.lookup l = some [A] → l ∈ obs → ∃ e ∈ condEffs, e.ante = A ∧ l ∈ e.res
  many : ∀ l cs ρ s, d.possible.lookup l = some cs → 2 ≤ cs.length → l ∈ obs → applicable (unionAll cs) ρ s →
    (∀ l' A, d.possible.lookup l' = some [A] → l' ∉ obs) → l ∈ fired condEffs ρ s
  lost : ∀ l A l', d.possible.lookup l = some [A] → l ∈ obs → (∃ cs, d.possible.lookup l' = some cs ∧ 2 ≤ cs.length) →
    ∀ e ∈ condEffs, l' ∉ e.res
  added : ∀ c ∈ conds, ∃ l cs j, d.possible.lookup l = some cs ∧ 2 ≤ cs.length ∧
    d.restrictive add ord (P ∪ (Cond.litsAll (conds.take j)).toFinset) l (decide (l ∈ obs)) = .ok (some c) ∧
      (j = 0 ∨ ∃ l' cs', l' ≠ l ∧ d.possible.lookup l' = some cs' ∧ 2 ≤ cs'.length)
  conds : ∀ l cs, d.possible.lookup l = some cs → 2 ≤ cs.length → ∃ j r,
    d.restrictive add ord (P ∪ (Cond.litsAll (conds.take j)).toFinset) l (decide (l ∈ obs)) = .ok r ∧
      (∀ c ∈ r.toList, c ∈ conds) ∧
      (j = 0 ∨ ∃ l' cs', l' ≠ l ∧ d.possible.lookup l' = some cs' ∧ 2 ≤ cs'.length)

omit hadd ho in
theorem Built.single {d : DepSet} {P obs eff : Finset Lit} {conds : List Cond} {condEffs : List CondEff}
    (h : Built add ord d P obs eff conds condEffs) (l : Lit) (A : Finset Lit) (ρ : String → String) (s : State)
    (hl : d.possible.lookup l = some [A]) (ho : l ∈ obs) (ha : applicable A ρ s) : l ∈ fired condEffs ρ s := by
  obtain ⟨e, he, rfl, hr⟩ := h.kept l A hl ho
  exact mem_fired.mpr ⟨e, he, ha, hr⟩

omit hadd ho in
theorem compress_kept {es : List CondEff} {o : CondEff} (h : o ∈ es) :
    ∃ e ∈ compress es, e.ante = o.ante ∧ o.res ⊆ e.res := by
  induction hn : es.length using Nat.strong_induction_on generalizing es with
  | _ n ih =>
    cases es with
    | nil => simp at h
    | cons f es =>
      unfold compress
      by_cases hf : o.ante = f.ante
      · refine ⟨_, List.mem_cons_self, hf.symm, ?_⟩
        intro x hx
        simp only [Finset.mem_union, mem_unionAll, List.mem_map, List.mem_filter, decide_eq_true_eq]
        rcases List.mem_cons.mp h with rfl | h
        · exact Or.inl hx
        · exact Or.inr ⟨_, ⟨o, ⟨h, hf⟩, rfl⟩, hx⟩
      · have ho : o ∈ es.filter fun o => ¬ o.ante = f.ante := by
          rcases List.mem_cons.mp h with rfl | h
          · exact absurd rfl hf
          · simp [h, hf]
        obtain ⟨e, he, h1, h2⟩ := ih _ (by rw [← hn, List.length_cons]; exact Nat.lt_succ_of_le (List.length_filter_le _ _)) ho rfl
        exact ⟨e, List.mem_cons_of_mem _ he, h1, h2⟩

omit hadd ho in
theorem keys_of_lookup {d : DepSet} {l : Lit} {cs : List (Finset Lit)} (h : d.possible.lookup l = some cs) :
    l ∈ d.possible.map Prod.fst := by
  by_contra hk
  rw [(Py.lookup_none_iff _ _).mpr hk] at h; simp at h

omit hadd ho in
theorem lookup_of_keys {d : DepSet} {l : Lit} (h : l ∈ d.possible.map Prod.fst) :
    ∃ cs, d.possible.lookup l = some cs := by
  cases hk : d.possible.lookup l with
  | none => exact absurd h ((Py.lookup_none_iff _ _).mp hk)
  | some cs => exact ⟨cs, rfl⟩

omit hadd ho in
theorem compress_res {es : List CondEff} {e : CondEff} (he : e ∈ compress es) {l : Lit} (hl : l ∈ e.res) :
    ∃ o ∈ es, l ∈ o.res := by
  induction h : es.length using Nat.strong_induction_on generalizing es with
  | _ n ih =>
    cases es with
    | nil => simp [compress] at he
    | cons f es =>
      unfold compress at he
      rw [List.mem_cons] at he
      rcases he with rfl | he
      · simp only [Finset.mem_union, mem_unionAll, List.mem_map, List.mem_filter] at hl
        rcases hl with hl | ⟨_, ⟨o, ⟨ho, _⟩, rfl⟩, hl⟩
        · exact ⟨f, by simp, hl⟩
        · exact ⟨o, by simp [ho], hl⟩
      · obtain ⟨o, ho, hl⟩ := ih _ (by rw [← h, List.length_cons]; exact Nat.lt_succ_of_le (List.length_filter_le _ _)) he rfl
        exact ⟨o, by simp [(List.mem_filter.mp ho).1], hl⟩

theorem constructEffects_spec {K : CondLearner} {a : String} {d : DepSet} (hok : d.OK)
    (hnd : (d.possible.map Prod.fst).Nodup) (hcb : K.base.cannotBe a = ∅) (hc0 : K.conds a = []) (he0 : K.condEffs a = [])
    (heff : (K.base.dom.act a).eff = ∅) :
    ∃ K', K.constructEffects add ord a d = .ok K' ∧ Touch a K K' ∧ K'.deps = K.deps ∧
      Built add ord d (K.base.dom.act a).pre (K.obsEff a) (K'.base.dom.act a).eff (K'.conds a) (K'.condEffs a) := by
  let cands : Lit → List (Finset Lit) := fun l => (d.possible.lookup l).getD []
  have hlk : ∀ l ∈ d.possible.map Prod.fst, d.possible.lookup l = some (cands l) := by
    intro l hl; obtain ⟨cs, h⟩ := lookup_of_keys hl; simp [cands, h]
  have hcs : ∀ {l cs}, d.possible.lookup l = some cs → cands l = cs := by intro l cs h; simp [cands, h]
  obtain ⟨K1, h1, h2, h3, h4, h5, h6, h7⟩ := verifyFold_spec hadd ho (K := K) (a := a) cands hcb hc0 he0
    (d.possible.map Prod.fst) hnd hlk (fun l hl c hc => ((hok l _ (hlk l hl)).bounds c hc).1)
  let coll := (d.possible.map Prod.fst).flatMap fun l => collOf (K.obsEff a) (cands l) l
  let K2 : CondLearner := if coll.length = 0 then K1
    else { K1 with condEffs := Function.update K1.condEffs a (compress coll) }
  have hK2 : K.constructEffects add ord a d = .ok K2 := by
    unfold CondLearner.constructEffects
    rw [h1]
    simp only [bind, Except.bind]
    change (if coll.length = 0 then _ else _) = _
    simp only [K2]
    split <;> rfl
  have ht : Touch a K1 K2 := by
    simp only [K2]
    split
    · exact Touch.refl a K1
    · exact ⟨SameStatic.refl _, fun _ _ => rfl, fun _ _ => rfl,
          fun b hb => by simp [Function.update_apply, hb], fun _ _ => rfl, rfl, rfl, rfl, rfl, rfl, rfl, rfl⟩
  have hb : K2.base = K1.base := by simp only [K2]; split <;> rfl
  have hc : K2.conds = K1.conds := by simp only [K2]; split <;> rfl
  have hd : K2.deps = K1.deps := by simp only [K2]; split <;> rfl
  have hce : ∀ ρ s, fired (K2.condEffs a) ρ s =
      if coll = [] then fired ((d.possible.map Prod.fst).flatMap fun l => restrOf (K.obsEff a) (cands l) l) ρ s
      else fired coll ρ s := by
    intro ρ s
    simp only [K2]
    by_cases hz : coll = []
    · simp [hz, h4]
    · rw [if_neg (by simpa using hz), if_neg hz]
      simp only [Function.update_self, fired_compress]
  have hcoll : ∀ e, e ∈ coll ↔ ∃ l A, d.possible.lookup l = some [A] ∧ l ∈ K.obsEff a ∧ e = ⟨A, {l}⟩ := by
    intro e
    simp only [coll, List.mem_flatMap]
    constructor
    · rintro ⟨l, hl, he⟩
      unfold collOf at he
      split at he
      · rename_i A hA
        split at he
        · rename_i hob
          rw [List.mem_singleton] at he
          exact ⟨l, A, by rw [hlk l hl, hA], hob, he⟩
        · simp at he
      · simp at he
    · rintro ⟨l, A, hl, hob, rfl⟩
      refine ⟨l, keys_of_lookup hl, ?_⟩
      rw [hcs hl]; simp [collOf, hob]
  have hrestr : ∀ e, e ∈ ((d.possible.map Prod.fst).flatMap fun l => restrOf (K.obsEff a) (cands l) l) ↔
      ∃ l cs, d.possible.lookup l = some cs ∧ 2 ≤ cs.length ∧ l ∈ K.obsEff a ∧ e = ⟨unionAll cs, {l}⟩ := by
    intro e
    simp only [List.mem_flatMap]
    constructor
    · rintro ⟨l, hl, he⟩
      unfold restrOf at he
      split at he
      · rename_i hh
        rw [List.mem_singleton] at he
        exact ⟨l, cands l, hlk l hl, hh.2, hh.1, he⟩
      · simp at he
    · rintro ⟨l, cs, hl, h2, hob, rfl⟩
      refine ⟨l, keys_of_lookup hl, ?_⟩
      rw [hcs hl]; simp [restrOf, hob, h2]
  refine ⟨K2, hK2, h2.trans ht, hd.trans h3, ?_, ?_, ?_, ?_, ?_, ?_, ?_⟩
  · intro l
    rw [hb, h5, heff]
    simp only [Finset.notMem_empty, false_or]
    constructor
    · rintro ⟨hl, hob, hz⟩; exact ⟨cands l, hlk l hl, hob, hz⟩
    · rintro ⟨cs, hl, hob, hz⟩; exact ⟨keys_of_lookup hl, hob, by rw [hcs hl]; exact hz⟩
  · intro ρ s l hl
    rw [hce] at hl
    split at hl
    · rw [mem_fired] at hl
      obtain ⟨e, he, ha, hr⟩ := hl
      obtain ⟨l', cs, hl', h2, hob, rfl⟩ := (hrestr e).mp he
      rw [Finset.mem_singleton] at hr; subst hr
      exact ⟨cs, hl', hob, ha, by rintro rfl; simp at h2⟩
    · rw [mem_fired] at hl
      obtain ⟨e, he, ha, hr⟩ := hl
      obtain ⟨l', A, hl', hob, rfl⟩ := (hcoll e).mp he
      rw [Finset.mem_singleton] at hr; subst hr
      exact ⟨[A], hl', hob, by simpa [unionAll] using ha, by simp⟩
  · intro l A hl hob
    have hmem : (⟨A, {l}⟩ : CondEff) ∈ coll := (hcoll _).mpr ⟨l, A, hl, hob, rfl⟩
    have hz : coll.length ≠ 0 := by intro h0; rw [List.length_eq_zero_iff] at h0; rw [h0] at hmem; simp at hmem
    simp only [K2, if_neg hz, Function.update_self]
    obtain ⟨e, he, h1, h2⟩ := compress_kept hmem
    exact ⟨e, he, h1, h2 (by simp)⟩
  · intro l cs ρ s hl h2' hob ha hno
    rw [hce, if_pos, mem_fired]
    · exact ⟨_, (hrestr _).mpr ⟨l, cs, hl, h2', hob, rfl⟩, ha, by simp⟩
    · rw [List.eq_nil_iff_forall_not_mem]
      intro e he
      obtain ⟨l', A, hl', hob', _⟩ := (hcoll e).mp he
      exact hno l' A hl' hob'
  · rintro l A l' hl hob ⟨cs', hl', h2'⟩ e he hr
    have hmem : (⟨A, {l}⟩ : CondEff) ∈ coll := (hcoll _).mpr ⟨l, A, hl, hob, rfl⟩
    have hz : coll.length ≠ 0 := by intro h0; rw [List.length_eq_zero_iff] at h0; rw [h0] at hmem; simp at hmem
    simp only [K2, if_neg hz, Function.update_self] at he
    obtain ⟨o, ho', hr'⟩ := compress_res he hr
    obtain ⟨l'', B, hl'', _, rfl⟩ := (hcoll o).mp ho'
    rw [Finset.mem_singleton] at hr'; subst hr'
    rw [hl'] at hl''; simp only [Option.some.injEq] at hl''; subst hl''; simp at h2'
  · intro c hcc
    obtain ⟨l, hl, h2', j, e1, e3⟩ := h6 c (by rw [← hc]; exact hcc)
    rw [hc]
    refine ⟨l, cands l, j, hlk l hl, h2', e1, ?_⟩
    rcases e3 with e3 | ⟨l', hl', hne, hl2⟩
    · exact Or.inl e3
    · exact Or.inr ⟨l', cands l', hne, hlk l' hl', hl2⟩
  · intro l cs hl h2'
    obtain ⟨j, r, e1, e2, e3⟩ := h7 l (keys_of_lookup hl) (by rw [hcs hl]; exact h2')
    rw [hc]
    refine ⟨j, r, e1, e2, ?_⟩
    rcases e3 with e3 | ⟨l', hl', hne, hl2⟩
    · exact Or.inl e3
    · exact Or.inr ⟨l', cands l', hne, hlk l' hl', hl2⟩

omit hadd in
theorem removePre_ok {d : DepSet} (hd : d.OK) (hnd : (d.possible.map Prod.fst).Nodup) (pre : Finset Lit) :
    (d.removePre ord pre).OK ∧ ((d.removePre ord pre).possible.map Prod.fst).Nodup := by
  have hd' : DepSet.OK ⟨d.possible.filter fun p => p.1 ∉ pre, d.maxAnte⟩ := by
    intro l cs h
    have := Py.lookup_filter_key d.possible (fun k => decide (k ∉ pre)) l
    simp only at h
    rw [this] at h
    split at h
    · exact hd l cs h
    · simp at h
  obtain ⟨g1, _, g3, _⟩ := removes_spec ho ((d.possible.filter fun p => p.1 ∉ pre).map Prod.fst) pre true _ hd'
  refine ⟨g1, ?_⟩
  unfold DepSet.removePre
  dsimp only at g3 ⊢
  rw [g3]
  exact hnd.sublist (List.Sublist.map _ List.filter_sublist)

theorem constructAction_spec {K : CondLearner} {a : String} {d : DepSet} (hd : K.deps a = some d) (hok : d.OK)
    (hnd : (d.possible.map Prod.fst).Nodup) (hcb : K.base.cannotBe a = ∅) (hc0 : K.conds a = []) (he0 : K.condEffs a = [])
    (heff : (K.base.dom.act a).eff = ∅) :
    ∃ K', K.constructAction add ord a = .ok K' ∧ Touch a K K' ∧
      Built add ord (d.removePre ord (K.base.dom.act a).pre) (K.base.dom.act a).pre (K.obsEff a)
        (K'.base.dom.act a).eff (K'.conds a) (K'.condEffs a) := by
  have hp : K.preLits a = (K.base.dom.act a).pre := by simp [CondLearner.preLits, hc0, Cond.litsAll]
  obtain ⟨g1, g2⟩ := removePre_ok ho hok hnd (K.base.dom.act a).pre
  let K1 : CondLearner := { K with deps := Function.update K.deps a (some (d.removePre ord (K.base.dom.act a).pre)) }
  obtain ⟨K', e1, e2, _, e4⟩ := constructEffects_spec hadd ho (K := K1) g1 g2 hcb hc0 he0 heff
  refine ⟨K', ?_, ?_, e4⟩
  · unfold CondLearner.constructAction
    rw [hd]; dsimp only; rw [hp]; exact e1
  · have t : Touch a K K1 := ⟨SameStatic.refl _, fun _ _ => rfl, fun _ _ => rfl, fun _ _ => rfl,
      fun b hb => by simp [K1, Function.update_apply, hb], rfl, rfl, rfl, rfl, rfl, rfl, rfl⟩
    exact t.trans e2

/-- The loop over the actions. -/
theorem constructFold_spec (D0 : String → DepSet) (as : List String) (hnd : as.Nodup) (K : CondLearner)
    (h : ∀ a ∈ as, K.deps a = some (D0 a) ∧ (D0 a).OK ∧ ((D0 a).possible.map Prod.fst).Nodup ∧ K.base.cannotBe a = ∅ ∧
      K.conds a = [] ∧ K.condEffs a = [] ∧ (K.base.dom.act a).eff = ∅) :
    ∃ K', as.foldlM (CondLearner.constructAction add ord) K = .ok K' ∧
      SameStatic K.base.dom K'.base.dom ∧ K'.base.observed = K.base.observed ∧ K'.base.safe = K.base.safe ∧
      K'.obsEff = K.obsEff ∧
      (∀ a, (K'.base.dom.act a).pre = (K.base.dom.act a).pre ∧ (K'.base.dom.act a).ineq = (K.base.dom.act a).ineq) ∧
      (∀ a, a ∉ as → K'.base.dom.act a = K.base.dom.act a ∧ K'.conds a = K.conds a ∧ K'.condEffs a = K.condEffs a) ∧
      ∀ a ∈ as, Built add ord ((D0 a).removePre ord (K.base.dom.act a).pre) (K.base.dom.act a).pre (K.obsEff a)
        (K'.base.dom.act a).eff (K'.conds a) (K'.condEffs a) := by
  induction as generalizing K with
  | nil => exact ⟨K, rfl, SameStatic.refl _, rfl, rfl, rfl, by simp, by simp, by simp⟩
  | cons b as ih =>
    obtain ⟨hb, hnd'⟩ := List.nodup_cons.mp hnd
    obtain ⟨a1, a2, a3, a4, a5, a6, a7⟩ := h b (by simp)
    obtain ⟨K1, e1, e2, e3⟩ := constructAction_spec hadd ho a1 a2 a3 a4 a5 a6 a7
    have hne : ∀ a ∈ as, a ≠ b := fun a ha e => hb (e ▸ ha)
    obtain ⟨K2, f1, f2, f3, f4, f5, f6, f7, f8⟩ := ih hnd' K1 (by
      intro a ha
      obtain ⟨b1, b2, b3, b4, b5, b6, b7⟩ := h a (by simp [ha])
      exact ⟨by rw [e2.deps a (hne a ha), b1], b2, b3, by rw [e2.cannotBe, b4], by rw [e2.conds a (hne a ha), b5],
        by rw [e2.condEffs a (hne a ha), b6], by rw [e2.acts a (hne a ha), b7]⟩)
    refine ⟨K2, ?_, e2.static.trans f2, f3.trans e2.observed, f4.trans e2.safe, f5.trans e2.obsEff, ?_, ?_, ?_⟩
    · rw [List.foldlM_cons, e1]; exact f1
    · intro a
      by_cases hab : a = b
      · subst hab; exact ⟨(f6 a).1.trans e2.pre, (f6 a).2.trans e2.ineq⟩
      · rw [(f6 a).1, (f6 a).2, e2.acts a hab]; exact ⟨rfl, rfl⟩
    · intro a ha
      simp only [List.mem_cons, not_or] at ha
      obtain ⟨g1, g2, g3⟩ := f7 a ha.2
      exact ⟨g1.trans (e2.acts a ha.1), g2.trans (e2.conds a ha.1), g3.trans (e2.condEffs a ha.1)⟩
    · intro a ha
      rcases List.mem_cons.mp ha with rfl | ha
      · obtain ⟨g1, g2, g3⟩ := f7 a hb
        rw [g1, g2, g3]; exact e3
      · have := f8 a ha
        rw [e2.acts a (hne a ha), e2.obsEff] at this
        exact this

end
end Model
