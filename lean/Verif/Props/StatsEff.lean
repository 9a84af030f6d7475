import Verif.Lemmas.StatsEff
import Verif.Props.World

/-! C66: the semantic evaluation of learned effects. -/
namespace Props
open Model Spec

variable {mode : Mode} {Dm Dl : Domain} {obs : List (Sig × List Component)} {a : String}

/-- The grounding of a component under the true signature. -/
abbrev gr (Dm : Domain) (c : Component) : String → String := subst (Sig.names (Dm.act c.call.name).sig) c.call.params

/-- The learned domain speaks about the same predicates, constants and action parameters, and has no new actions. -/
structure SameLanguage (Dm Dl : Domain) : Prop where
  preds : Dl.preds = Dm.preds
  consts : Dl.consts = Dm.consts
  names : ∀ a ∈ Dl.names, a ∈ Dm.names
  sig : ∀ a ∈ Dl.names, (Dl.act a).sig = (Dm.act a).sig

theorem SameLanguage.snap (h : SameLanguage Dm Dl) (s : State) (so : Sig) : stateSnapshot Dl s so = stateSnapshot Dm s so := by
  unfold stateSnapshot groundedVocab; rw [h.preds, h.consts]

/-- The exported rows of an evaluation. -/
def rowsOf (mode : Mode) (Dm Dl : Domain) (obs : List (Sig × List Component)) (n : ℕ) (policy : String)
    (pre : (String → Option ℚ) × (String → Option ℚ)) : Except Err (List PerfRow) :=
  (effPerf mode Dm Dl obs).map (perfRows Dm n policy pre)

/-- What `Operator.apply` may give: the successor, or nothing at all, or the same state. -/
theorem opApply_cases {m : ActModel} {call : List String} {s s' : State} (h : opApply mode m call s = .ok s') :
    s' = successor m.eff (subst (Sig.names m.sig) call) s ∨ s' = s := by
  unfold opApply at h
  dsimp only at h
  split_ifs at h
  · injection h with h; exact Or.inl h.symm
  · cases mode with
    | raises => simp at h
    | unchanged => injection h with h; exact Or.inr h.symm
    | applies => injection h with h; exact Or.inl h.symm

theorem getD_one {k : Counts} {a : String} (hp : k.fp a = 0) (hn : k.fn a = 0) (ht : ∀ t, k.tp a = some t → 0 < t) :
    (k.precision a).getD 1 = 1 ∧ (k.recall a).getD 1 = 1 := by
  unfold Counts.precision Counts.recall
  cases h : k.tp a with
  | none => exact ⟨rfl, rfl⟩
  | some t =>
    have h0 := ht t h
    have h1 : (t : ℚ) ≠ 0 := by exact_mod_cast h0.ne'
    rw [hp, hn]
    simp [h0.ne', h1]

/-- The learned action can be executed in the state of the component. -/
def LearnedApplies (Dl : Domain) (c : Component) : Prop :=
  applicable (Dl.act c.call.name).pre (subst (Sig.names (Dl.act c.call.name).sig) c.call.params) c.prev ∧
  ineqHolds (Dl.act c.call.name).ineq (subst (Sig.names (Dl.act c.call.name).sig) c.call.params)

instance learnedAppliesDec (Dl : Domain) (c : Component) : Decidable (LearnedApplies Dl c) := by unfold LearnedApplies; infer_instance

/-- **C66.** Every wrong effect is invisible to the evaluation. The learned action may have any number of effects that the true
action does not have: if it also has the true ones (and does not contradict itself), precision and recall are reported as 1, on any
test data. This holds when inapplicable actions raise or are applied anyway, and, when they leave the state unchanged, on the data
where the learned action is applicable. (The true action is applied to the state after the learned one, lines 202-203, instead of
the previous state.) In particular a model with exactly the true effects is reported as perfect. -/
theorem C66_spurious_effects_invisible (hl : SameLanguage Dm Dl) (hsup : ∀ a ∈ Dl.names, (Dm.act a).eff ⊆ (Dl.act a).eff)
    (hcons : ∀ o ∈ obs, ∀ c ∈ o.2, c.call.name ∈ Dl.names → GroundConsistent (Dl.act c.call.name).eff (gr Dm c))
    (hmode : mode = .unchanged → ∀ o ∈ obs, ∀ c ∈ o.2, c.call.name ∈ Dl.names → LearnedApplies Dl c)
    (n : ℕ) (policy : String) (pre : (String → Option ℚ) × (String → Option ℚ)) :
    ∃ rows, rowsOf mode Dm Dl obs n policy pre = .ok rows ∧ rows.map (·.action) = Dm.names ∧
      ∀ r ∈ rows, r.effPrec = 1 ∧ r.effRec = 1 := by
  have key : ∃ P R, effPerf mode Dm Dl obs = .ok (P, R) ∧ ∀ a ∈ Dm.names, (P a).getD 1 = 1 ∧ (R a).getD 1 = 1 := by
    by_cases hp : Dm.preds = []
    · refine ⟨_, _, by unfold effPerf; rw [if_pos (by simp [hp])], fun a ha => ?_⟩
      simp [ha]
    · refine ⟨_, _, effPerf_eq hp (fun x _ => hl.names _), fun a _ => ?_⟩
      set l := (flatten obs).filterMap (effIncr mode Dm Dl) with hldef
      have hrec : ∀ r ∈ l, 0 < r.2.1 ∧ r.2.2.1 = 0 ∧ r.2.2.2 = 0 := by
        intro r hr
        rw [hldef, List.mem_filterMap] at hr
        obtain ⟨x, hx, hr⟩ := hr
        obtain ⟨o, ho, e1, hc⟩ := mem_flatten.mp hx
        unfold effIncr at hr
        dsimp only at hr
        by_cases hn : x.2.call.name ∈ Dl.names
        · rw [if_neg (not_not.mpr hn)] at hr
          cases hL : opApply mode (Dl.act x.2.call.name) x.2.call.params x.2.prev with
          | error e => rw [hL] at hr; simp at hr
          | ok lnext =>
            rw [hL] at hr
            dsimp only at hr
            cases hM : opApply mode (Dm.act x.2.call.name) x.2.call.params lnext with
            | error e => rw [hM] at hr; simp at hr
            | ok mnext =>
              rw [hM] at hr
              dsimp only at hr
              have hlearn : lnext = successor (Dl.act x.2.call.name).eff (gr Dm x.2) x.2.prev := by
                unfold opApply at hL
                dsimp only at hL
                unfold gr
                rw [hl.sig _ hn] at hL
                split_ifs at hL with hap
                · injection hL with hL; exact hL.symm
                · cases hmo : mode with
                  | raises => rw [hmo] at hL; simp at hL
                  | applies => rw [hmo] at hL; injection hL with hL; exact hL.symm
                  | unchanged =>
                    have := hmode hmo o ho x.2 hc hn
                    unfold LearnedApplies at this
                    rw [hl.sig _ hn] at this
                    exact absurd this hap
              have hsame : mnext = lnext := by
                rcases opApply_cases hM with e | e
                · rw [e, hlearn]; exact successor_of_superset (hsup _ hn) (hcons o ho x.2 hc hn) _
                · exact e
              rw [hsame, hl.snap] at hr
              generalize stateSnapshot Dm lnext (x.1 ++ Dm.consts) \ stateSnapshot Dm x.2.prev (x.1 ++ Dm.consts) = E at hr
              split_ifs at hr with h0
              · injection hr with hr; subst hr; exact ⟨Nat.one_pos, rfl, rfl⟩
              · injection hr with hr; subst hr
                refine ⟨?_, by simp, by simp⟩
                have : E.card ≠ 0 := fun k => h0 ⟨k, k⟩
                rw [Finset.inter_self]; exact Nat.pos_of_ne_zero this
        · rw [if_pos hn] at hr; simp at hr
      obtain ⟨h1, h2, h3⟩ := Counts.addAll_spec l Counts.zero a
      have hin : ∀ r ∈ incrOf a l, 0 < r.2.1 ∧ r.2.2.1 = 0 ∧ r.2.2.2 = 0 := fun r hr => hrec r (List.mem_filter.mp hr).1
      refine getD_one ?_ ?_ ?_
      · rw [h2, List.sum_eq_zero (by intro y hy; obtain ⟨r, hr, rfl⟩ := List.mem_map.mp hy; exact (hin r hr).2.1)]; rfl
      · rw [h3, List.sum_eq_zero (by intro y hy; obtain ⟨r, hr, rfl⟩ := List.mem_map.mp hy; exact (hin r hr).2.2)]; rfl
      · intro t ht
        rw [h1] at ht
        cases hi : incrOf a l with
        | nil => rw [hi, if_pos rfl] at ht; simp [Counts.zero] at ht
        | cons r rs =>
          rw [hi, if_neg (List.cons_ne_nil _ _)] at ht
          injection ht with ht
          have := (hin r (by rw [hi]; exact List.mem_cons_self)).1
          rw [← ht, List.map_cons, List.sum_cons]
          omega
  obtain ⟨P, R, h1, h2⟩ := key
  refine ⟨perfRows Dm n policy pre (P, R), by unfold rowsOf; rw [h1]; rfl, ?_, ?_⟩
  · unfold perfRows; rw [List.map_map]; exact List.map_id'' (fun _ => rfl) _
  · intro r hr
    unfold perfRows at hr
    obtain ⟨a, ha, rfl⟩ := List.mem_map.mp hr
    exact h2 a ha

/-- The part of the new literals of a run that the learned effects explain, and all of them; a run that changes nothing counts as one
explained change. -/
def explained (Dm Dl : Domain) (x : Sig × Component) : ℕ × ℕ :=
  let M := newLits Dm x.1 x.2.prev (successor (Dm.act x.2.call.name).eff (gr Dm x.2) x.2.prev)
  let L := newLits Dm x.1 x.2.prev (successor (Dl.act x.2.call.name).eff (gr Dm x.2) x.2.prev)
  if M = ∅ then (1, 1) else (L.card, M.card)

/-- The runs of an action in the test data. -/
def compsOf (a : String) (obs : List (Sig × List Component)) : List (Sig × Component) :=
  (flatten obs).filter fun x => x.2.call.name = a

/-- The sums over several runs. -/
def totals (Dm Dl : Domain) (l : List (Sig × Component)) : ℕ × ℕ :=
  ((l.map fun x => (explained Dm Dl x).1).sum, (l.map fun x => (explained Dm Dl x).2).sum)

theorem filter_filterMap_name {l : List (Sig × Component)} {f : Sig × Component → Option (String × ℕ × ℕ × ℕ)} {a : String}
    (hf : ∀ x ∈ l, ∀ r, f x = some r → r.1 = x.2.call.name) :
    incrOf a (l.filterMap f) = (l.filter fun x => x.2.call.name = a).filterMap f := by
  induction l with
  | nil => rfl
  | cons x l ih =>
    have ih' := ih (fun y hy => hf y (List.mem_cons_of_mem _ hy))
    cases hx : f x with
    | none =>
      rw [List.filterMap_cons_none hx, ih']
      by_cases hn : x.2.call.name = a
      · rw [List.filter_cons_of_pos (by simpa using hn), List.filterMap_cons_none hx]
      · rw [List.filter_cons_of_neg (by simpa using hn)]
    | some r =>
      have := hf x List.mem_cons_self r hx
      rw [List.filterMap_cons_some hx]
      by_cases hn : x.2.call.name = a
      · rw [incrOf_cons_pos (this.trans hn), List.filter_cons_of_pos (by simpa using hn), List.filterMap_cons_some hx, ih']
      · rw [incrOf_cons_neg (by rw [this]; exact hn), List.filter_cons_of_neg (by simpa using hn), ih']

/-- **C66.** Missing effects are measured correctly. If the learned actions have no wrong effects (as SAM guarantees) and both
operators are executed, a tested action gets precision 1 and as recall the share of the really changed literals that the learned
effects explain. -/
theorem C66_missing_effects_measured (hp : Dm.preds ≠ []) (hl : SameLanguage Dm Dl) (hsub : ∀ a ∈ Dl.names, (Dl.act a).eff ⊆ (Dm.act a).eff)
    (hcons : ∀ o ∈ obs, ∀ c ∈ o.2, c.call.name ∈ Dl.names → GroundConsistent (Dm.act c.call.name).eff (gr Dm c)) :
    ∃ P R, effPerf .applies Dm Dl obs = .ok (P, R) ∧ ∀ a ∈ Dl.names, compsOf a obs ≠ [] →
      P a = some 1 ∧
      R a = some (((totals Dm Dl (compsOf a obs)).1 : ℚ) / (totals Dm Dl (compsOf a obs)).2) := by
  refine ⟨_, _, effPerf_eq hp (fun x _ => hl.names _), fun a ha hne => ?_⟩
  have hincr : ∀ x ∈ flatten obs, x.2.call.name ∈ Dl.names →
      ∃ t q, effIncr .applies Dm Dl x = some (x.2.call.name, t, 0, q) ∧ t = (explained Dm Dl x).1 ∧ t + q = (explained Dm Dl x).2 := by
    intro x hx hn
    obtain ⟨o, ho, e1, hc⟩ := mem_flatten.mp hx
    have hap : ∀ (m : ActModel) (s : State), opApply .applies m x.2.call.params s = .ok (successor m.eff (subst (Sig.names m.sig) x.2.call.params) s) := by
      intro m s; unfold opApply; dsimp only; split_ifs <;> rfl
    unfold effIncr
    dsimp only
    rw [if_neg (not_not.mpr hn), hap]
    dsimp only
    rw [hap]
    dsimp only
    rw [hl.sig _ hn, hl.snap]
    have hs := successor_of_subset (ρ := gr Dm x.2) (hsub _ hn) x.2.prev
    have hsubset := newLits_subset (D := Dm) (objs := x.1) (hsub _ hn) (hcons o ho x.2 hc hn) x.2.prev
    unfold explained
    dsimp only
    unfold gr at hs hsubset ⊢
    unfold newLits at hsubset ⊢
    rw [hs]
    generalize stateSnapshot Dm (successor (Dm.act x.2.call.name).eff _ x.2.prev) (x.1 ++ Dm.consts) \ _ = M at hsubset ⊢
    generalize stateSnapshot Dm (successor (Dl.act x.2.call.name).eff _ x.2.prev) (x.1 ++ Dm.consts) \ _ = L at hsubset ⊢
    by_cases hM : M = ∅
    · have hL : L = ∅ := Finset.subset_empty.mp (hM ▸ hsubset)
      rw [if_pos hM, hM, hL, if_pos (by simp)]
      exact ⟨1, 0, rfl, rfl, rfl⟩
    · rw [if_neg hM, if_neg (fun k => hM (by simpa using k.1))]
      refine ⟨(M ∩ L).card, (M \ L).card, ?_, ?_, ?_⟩
      · rw [Finset.sdiff_eq_empty_iff_subset.mpr hsubset]; rfl
      · rw [Finset.inter_eq_right.mpr hsubset]
      · exact card_inter_add_sdiff M L
  have hname : ∀ x ∈ flatten obs, ∀ r, effIncr .applies Dm Dl x = some r → r.1 = x.2.call.name := by
    intro x hx r hr
    by_cases hn : x.2.call.name ∈ Dl.names
    · obtain ⟨t, q, h1, _⟩ := hincr x hx hn
      rw [h1] at hr; injection hr with hr; rw [← hr]
    · unfold effIncr at hr; dsimp only at hr; rw [if_pos hn] at hr; simp at hr
  have hlist : ∀ l : List (Sig × Component), (∀ x ∈ l, x ∈ flatten obs ∧ x.2.call.name = a) →
      ((l.filterMap (effIncr .applies Dm Dl)).map fun r => r.2.1).sum = (l.map fun x => (explained Dm Dl x).1).sum ∧
      ((l.filterMap (effIncr .applies Dm Dl)).map fun r => r.2.2.1).sum = 0 ∧
      ((l.filterMap (effIncr .applies Dm Dl)).map fun r => r.2.1).sum + ((l.filterMap (effIncr .applies Dm Dl)).map fun r => r.2.2.2).sum =
        (l.map fun x => (explained Dm Dl x).2).sum ∧ (l ≠ [] → l.filterMap (effIncr .applies Dm Dl) ≠ []) := by
    intro l hl'
    induction l with
    | nil => simp
    | cons x l ih =>
      obtain ⟨i1, i2, i3, _⟩ := ih (fun y hy => hl' y (List.mem_cons_of_mem _ hy))
      obtain ⟨hx, hxa⟩ := hl' x List.mem_cons_self
      obtain ⟨t, q, h1, h2, h3⟩ := hincr x hx (by rw [hxa]; exact ha)
      rw [List.filterMap_cons_some h1]
      simp only [List.map_cons, List.sum_cons]
      refine ⟨by rw [i1, h2], by rw [i2], by rw [← i3, ← h3]; omega, fun _ => List.cons_ne_nil _ _⟩
  obtain ⟨s1, s2, s3, s4⟩ := hlist (compsOf a obs) (fun x hx => by
    unfold compsOf at hx; rw [List.mem_filter] at hx; exact ⟨hx.1, by simpa using hx.2⟩)
  obtain ⟨k1, k2, k3⟩ := Counts.addAll_spec ((flatten obs).filterMap (effIncr .applies Dm Dl)) Counts.zero a
  rw [filter_filterMap_name hname] at k1 k2 k3
  have hfold : (flatten obs).filter (fun x => x.2.call.name = a) = compsOf a obs := rfl
  rw [hfold] at k1 k2 k3
  rw [if_neg (s4 hne), s1] at k1
  rw [s2] at k2
  unfold Counts.precision Counts.recall
  rw [k1, k2, k3]
  simp only [Counts.zero, Option.getD_none, zero_add, Option.map_some, Nat.add_zero, if_true, Nat.cast_zero, add_zero]
  constructor
  · congr 1
    split_ifs with h0
    · rfl
    · exact div_self (by exact_mod_cast h0)
  · congr 1
    rw [s1] at s3
    unfold totals
    dsimp only
    rw [← s3]
    split_ifs with h0
    · simp [h0]
    · push_cast; rfl

/-- **C66.** If inapplicable actions raise, a tested run whose true action is not applicable after the learned one is skipped: an
action all of whose runs are like that is reported as perfect, whatever its learned effects. (An action that deletes one of its own
preconditions is like that as soon as the deletion is learned.) -/
theorem C66_self_disabling_unmeasured (hp : Dm.preds ≠ []) (hl : SameLanguage Dm Dl)
    (hdis : ∀ o ∈ obs, ∀ c ∈ o.2, c.call.name = a → a ∈ Dl.names →
      ¬ applicable (Dm.act a).pre (gr Dm c) (successor (Dl.act a).eff (gr Dm c) c.prev)) :
    ∃ P R, effPerf .raises Dm Dl obs = .ok (P, R) ∧ (P a).getD 1 = 1 ∧ (R a).getD 1 = 1 := by
  refine ⟨_, _, effPerf_eq hp (fun x _ => hl.names _), ?_⟩
  have hz : incrOf a ((flatten obs).filterMap (effIncr .raises Dm Dl)) = [] := by
    unfold incrOf
    rw [List.filter_eq_nil_iff]
    intro r hr hra
    rw [List.mem_filterMap] at hr
    obtain ⟨x, hx, hr⟩ := hr
    obtain ⟨o, ho, e1, hc⟩ := mem_flatten.mp hx
    have hra' : r.1 = a := by simpa using hra
    unfold effIncr at hr
    dsimp only at hr
    by_cases hn : x.2.call.name ∈ Dl.names
    · rw [if_neg (not_not.mpr hn)] at hr
      cases hL : opApply .raises (Dl.act x.2.call.name) x.2.call.params x.2.prev with
      | error e => rw [hL] at hr; simp at hr
      | ok lnext =>
        rw [hL] at hr
        dsimp only at hr
        cases hM : opApply .raises (Dm.act x.2.call.name) x.2.call.params lnext with
        | error e => rw [hM] at hr; simp at hr
        | ok mnext =>
          rw [hM] at hr
          dsimp only at hr
          have hname : x.2.call.name = a := by
            split_ifs at hr
            · injection hr with hr; rw [← hra', ← hr]
            · injection hr with hr; rw [← hra', ← hr]
          have h1 : lnext = successor (Dl.act a).eff (gr Dm x.2) x.2.prev := by
            unfold opApply at hL; dsimp only at hL
            split_ifs at hL
            · injection hL with hL
              unfold gr
              rw [hname] at hL ⊢
              rw [← hL, hl.sig a (hname ▸ hn)]
          have h2 : applicable (Dm.act a).pre (gr Dm x.2) lnext := by
            unfold opApply at hM; dsimp only at hM
            split_ifs at hM with hap
            · unfold gr
              rw [hname] at hap ⊢
              exact hap.1
          exact hdis o ho x.2 hc hname (hname ▸ hn) (h1 ▸ h2)
    · rw [if_pos hn] at hr; simp at hr
  obtain ⟨k1, k2, k3⟩ := Counts.addAll_spec ((flatten obs).filterMap (effIncr .raises Dm Dl)) Counts.zero a
  rw [hz] at k1 k2 k3
  refine getD_one (by rw [k2]; rfl) (by rw [k3]; rfl) (fun t ht => ?_)
  rw [k1, if_pos rfl] at ht
  simp [Counts.zero] at ht

/-- **C66.** The evaluation ends with a KeyError exactly when the test data contains an action of the learned domain that the true
domain does not have (and there is a predicate at all). -/
theorem C66_foreign_action (hp : Dm.preds ≠ []) :
    (∃ e, effPerf mode Dm Dl obs = .error e) ↔ ∃ o ∈ obs, ∃ c ∈ o.2, c.call.name ∈ Dl.names ∧ c.call.name ∉ Dm.names := by
  constructor
  · rintro ⟨e, he⟩
    by_contra hne
    push Not at hne
    rw [effPerf_eq hp (fun x hx hn => by
      obtain ⟨o, ho, _, hc⟩ := mem_flatten.mp hx
      exact hne o ho x.2 hc hn)] at he
    simp at he
  · rintro ⟨o, ho, c, hc, h1, h2⟩
    unfold effPerf
    rw [if_neg (by simpa using hp), effObs_flatten]
    have hx : (o.1, c) ∈ flatten obs := mem_flatten.mpr ⟨o, ho, rfl, hc⟩
    have : ∀ (xs : List (Sig × Component)) (k : Counts), (o.1, c) ∈ xs →
        ∃ e, xs.foldlM (fun k x => effDiffStep mode Dm Dl x.1 k x.2) k = Except.error e := by
      intro xs
      induction xs with
      | nil => intro k h; simp at h
      | cons y ys ih =>
        intro k h
        rw [List.foldlM_cons]
        cases hy : effDiffStep mode Dm Dl y.1 k y.2 with
        | error e => exact ⟨e, rfl⟩
        | ok k' =>
          rcases List.mem_cons.mp h with rfl | h
          · unfold effDiffStep at hy
            dsimp only at hy
            rw [if_neg (not_not.mpr h1), if_pos h2] at hy
            simp at hy
          · exact ih k' h
    obtain ⟨e, he⟩ := this _ Counts.zero hx
    exact ⟨e, by rw [he]; rfl⟩

/-! Examples and limits. -/
namespace EffCase

def act (pre eff : Finset Lit) : ActModel := ⟨[("?x", World.tObj)], pre, ∅, eff⟩
def pr (n : String) (b : Bool) : Lit := ⟨n, ["?x"], b⟩
def dom (pre eff : Finset Lit) : Domain :=
  { preds := [⟨"p", [("?x", World.tObj)]⟩, ⟨"q", [("?x", World.tObj)]⟩, ⟨"r", [("?x", World.tObj)]⟩], consts := [], names := ["go"],
    act := fun _ => act pre eff }

/-- The true action makes `p` true; the learned one also `q` and not `r`. -/
def tM : Domain := dom ∅ {pr "p" true}
def tL : Domain := dom ∅ {pr "p" true, pr "q" true, pr "r" false}
def data : List (Sig × List Component) :=
  [([("o", World.tObj)], [⟨{⟨"r", ["o"]⟩}, ⟨"go", ["o"]⟩, {⟨"r", ["o"]⟩, ⟨"p", ["o"]⟩}, true⟩])]

theorem same : SameLanguage tM tL := ⟨rfl, rfl, fun _ h => h, fun _ _ => rfl⟩

example : ∃ rows, rowsOf .raises tM tL data 1 "p" (fun _ => none, fun _ => none) = .ok rows ∧ rows.map (·.action) = ["go"] ∧
    ∀ r ∈ rows, r.effPrec = 1 ∧ r.effRec = 1 :=
  C66_spurious_effects_invisible same (by decide) (by decide) (by decide) _ _ _

/-- Two of the three learned effects are wrong, so the precision is really 1/3. -/
example : Spec.precision (tL.act "go").eff (tM.act "go").eff = 1 / 3 := by decide +kernel

/-- One of the two true effects is missing. -/
def uM : Domain := dom ∅ {pr "p" true, pr "r" false}
def uL : Domain := dom ∅ {pr "p" true}

theorem sameU : SameLanguage uM uL := ⟨rfl, rfl, fun _ h => h, fun _ _ => rfl⟩

example : ∃ P R, effPerf .applies uM uL data = .ok (P, R) ∧ P "go" = some 1 ∧ R "go" = some (1 / 2) := by
  obtain ⟨P, R, h1, h2⟩ := C66_missing_effects_measured (obs := data) (by decide) sameU (by decide) (by decide)
  obtain ⟨h3, h4⟩ := h2 "go" (by decide) (by decide)
  exact ⟨P, R, h1, h3, by rw [h4]; decide +kernel⟩

/-- The true action consumes `r` and makes `p` and `q` true; only the consumption was learned. -/
def vM : Domain := dom {pr "r" true} {pr "p" true, pr "q" true, pr "r" false}
def vL : Domain := dom {pr "r" true} {pr "r" false}

/-- Two of the three effects are missing, and the report says 1 and 1. -/
theorem C66_limit_self_disabling : ∃ P R, effPerf .raises vM vL data = .ok (P, R) ∧ (P "go").getD 1 = 1 ∧ (R "go").getD 1 = 1 :=
  C66_self_disabling_unmeasured (by decide) ⟨rfl, rfl, fun _ h => h, fun _ _ => rfl⟩ (by decide)

end EffCase
end Props
