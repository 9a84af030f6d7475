import Verif.Model.Logic

/-! Facts about the clause operations, for any primitives that behave like literals on a set `W`. -/
namespace Model
variable {α κ : Type} [DecidableEq α] [DecidableEq κ]

/-- The primitives behave like literals on `W`: the atom text is defined, two members are complementary
exactly when one is the flip of the other, and flipping is an involution of `W`. -/
structure OpsOK (ops : LitOps α κ) (W : α → Prop) : Prop where
  total : ∀ x, W x → ∃ k, ops.core x = .ok k
  compl : ∀ x y, W x → W y → ((ops.core x = ops.core y ∧ ops.isNeg x ≠ ops.isNeg y) ↔ y = ops.flip x)
  flipW : ∀ x, W x → W (ops.flip x)
  flip_flip : ∀ x, W x → ops.flip (ops.flip x) = x

theorem litOps_ok : OpsOK litOps (fun _ => True) where
  total x _ := ⟨_, rfl⟩
  compl x y _ _ := by
    simp only [litOps, Except.ok.injEq, ne_eq]
    constructor
    · rintro ⟨h1, h2⟩
      cases x; cases y
      simp only [Lit.atom, Atom.mk.injEq] at h1
      simp only [Lit.neg, Lit.mk.injEq]
      refine ⟨h1.1.symm, h1.2.symm, ?_⟩
      revert h2; rename_i p _ _ q; cases p <;> cases q <;> simp
    · rintro rfl; simp
  flipW _ _ := trivial
  flip_flip x _ := x.neg_neg

theorem OpsOK.flip_ne {ops : LitOps α κ} {W : α → Prop} (h : OpsOK ops W) {x : α} (hx : W x) :
    ops.flip x ≠ x := by
  intro e
  have := ((h.compl x (ops.flip x) hx (h.flipW x hx)).mpr rfl).2
  rw [e] at this
  exact this rfl

theorem OpsOK.flip_inj {ops : LitOps α κ} {W : α → Prop} (h : OpsOK ops W) {x y : α} (hx : W x) (hy : W y)
    (e : ops.flip x = ops.flip y) : x = y := by rw [← h.flip_flip x hx, e, h.flip_flip y hy]

theorem filter_pair_one (p : α → Bool) (x y : α) :
    ([x, y].filter p).length = 1 ↔ p x ≠ p y := by
  cases hx : p x <;> cases hy : p y <;> simp [List.filter, hx, hy]

theorem complPairs_eq {ops : LitOps α κ} {W : α → Prop} (h : OpsOK ops W) (l : List (List α))
    (hl : ∀ q ∈ l, q.length = 2) (hw : ∀ q ∈ l, ∀ x ∈ q, W x) :
    complPairs ops l = .ok (decide (∃ q ∈ l, ∃ x ∈ q, q = [x, ops.flip x])) := by
  induction l with
  | nil => simp [complPairs]
  | cons q l ih =>
    have hq := hl q (by simp)
    match q, hq with
    | [x, y], _ =>
      have hx := hw [x, y] (by simp) x (by simp)
      have hy := hw [x, y] (by simp) y (by simp)
      obtain ⟨k, hk⟩ := h.total x hx
      obtain ⟨k', hk'⟩ := h.total y hy
      have hc := h.compl x y hx hy
      rw [complPairs, hk, hk']
      simp only [bind, Except.bind, filter_pair_one]
      rw [hk, hk'] at hc
      simp only [Except.ok.injEq] at hc
      simp only [hc]
      have e : (∃ q ∈ [x, y] :: l, ∃ z ∈ q, q = [z, ops.flip z]) ↔
          y = ops.flip x ∨ ∃ q ∈ l, ∃ z ∈ q, q = [z, ops.flip z] := by
        rw [List.exists_mem_cons_iff]
        refine or_congr ⟨?_, ?_⟩ Iff.rfl
        · rintro ⟨z, _, hz⟩; simp only [List.cons.injEq, and_true] at hz; rw [hz.2, hz.1]
        · rintro rfl; exact ⟨x, by simp, rfl⟩
      split
      · rename_i hh
        congr 1; symm; rw [decide_eq_true_iff, e]; exact Or.inl hh
      · rename_i hh
        rw [ih (fun q hq => hl q (by simp [hq])) (fun q hq => hw q (by simp [hq]))]
        congr 1
        simp only [e, hh, false_or]

omit [DecidableEq α] in
theorem sublist_pair {l : List α} {x y : α} (hx : x ∈ l) (hy : y ∈ l) (hne : x ≠ y) :
    [x, y].Sublist l ∨ [y, x].Sublist l := by
  induction l with
  | nil => simp at hx
  | cons z l ih =>
    rcases List.mem_cons.mp hx with rfl | hx'
    · rcases List.mem_cons.mp hy with rfl | hy'
      · exact absurd rfl hne
      · exact Or.inl (List.Sublist.cons_cons _ (List.singleton_sublist.mpr hy'))
    · rcases List.mem_cons.mp hy with rfl | hy'
      · exact Or.inr (List.Sublist.cons_cons _ (List.singleton_sublist.mpr hx'))
      · exact (ih hx' hy').imp (·.cons _) (·.cons _)

/-- `check_complementary_literals` decides whether the set contains a literal and its flip. -/
theorem checkCompl_eq {ops : LitOps α κ} {W : α → Prop} (h : OpsOK ops W) (l : List α)
    (hw : ∀ x ∈ l, W x) :
    checkCompl ops l = .ok (decide (∃ x ∈ l, ops.flip x ∈ l)) := by
  unfold checkCompl
  rw [complPairs_eq h]
  · congr 1
    rw [decide_eq_decide]
    constructor
    · rintro ⟨q, hq, x, _, rfl⟩
      have := (Py.mem_combs.mp hq).2
      exact ⟨x, this.subset (by simp), this.subset (by simp)⟩
    · rintro ⟨x, hx, hfx⟩
      rcases sublist_pair hx hfx (h.flip_ne (hw x hx)).symm with hs | hs
      · exact ⟨_, Py.mem_combs.mpr ⟨rfl, hs⟩, x, by simp, rfl⟩
      · exact ⟨_, Py.mem_combs.mpr ⟨rfl, hs⟩, ops.flip x, by simp, by rw [h.flip_flip x (hw x hx)]⟩
  · intro q hq; exact (Py.mem_combs.mp hq).1
  · intro q hq x hx; exact hw x ((Py.mem_combs.mp hq).2.subset hx)

/-- A faithful enumeration of sets. -/
def EnumOK (ord : Finset α → List α) : Prop := ∀ s x, x ∈ ord s ↔ x ∈ s

theorem checkCompl_ord {ops : LitOps α κ} {W : α → Prop} (h : OpsOK ops W) {ord : Finset α → List α}
    (ho : EnumOK ord) (s : Finset α) (hw : ∀ x ∈ s, W x) :
    checkCompl ops (ord s) = .ok (decide (∃ x ∈ s, ops.flip x ∈ s)) := by
  rw [checkCompl_eq h _ (fun x hx => hw x ((ho s x).mp hx))]
  simp only [ho s]

theorem removeAssumptions_eq {ops : LitOps α κ} {W : α → Prop} (h : OpsOK ops W)
    {ord : Finset α → List α} (ho : EnumOK ord) (as : List α) (c : Finset α)
    (ha : ∀ x ∈ as, W x) (hc : ∀ x ∈ c, W x) (hcons : ∀ x ∈ c, ops.flip x ∉ c) :
    removeAssumptions ops ord as c = .ok (c.filter (fun x => ops.flip x ∉ as)) := by
  induction as generalizing c with
  | nil => simp [removeAssumptions]
  | cons a as ih =>
    have haW := ha a (by simp)
    rw [removeAssumptions, checkCompl_ord h ho]
    swap
    · intro x hx; simp only [Finset.mem_union, Finset.mem_singleton] at hx
      rcases hx with hx | rfl
      · exact hc x hx
      · exact haW
    have key : (∃ x ∈ c ∪ {a}, ops.flip x ∈ c ∪ {a}) ↔ ops.flip a ∈ c := by
      simp only [Finset.mem_union, Finset.mem_singleton]
      constructor
      · rintro ⟨x, hx | rfl, hf | hf⟩
        · exact absurd hf (hcons x hx)
        · rw [← hf, h.flip_flip x (hc x hx)]; exact hx
        · exact hf
        · exact absurd hf (h.flip_ne haW)
      · intro hf; exact ⟨a, Or.inr rfl, Or.inl hf⟩
    simp only [bind, Except.bind, key]
    by_cases hfa : ops.flip a ∈ c
    · simp only [hfa, decide_true, if_true]
      rw [ih _ (fun x hx => ha x (by simp [hx])) (fun x hx => hc x (Finset.mem_of_mem_erase hx))
        (fun x hx hfx => hcons x (Finset.mem_of_mem_erase hx) (Finset.mem_of_mem_erase hfx))]
      congr 1
      ext x
      simp only [Finset.mem_filter, Finset.mem_erase, List.mem_cons, not_or]
      constructor
      · rintro ⟨⟨h1, h2⟩, h3⟩
        refine ⟨h2, ?_, h3⟩
        intro e; exact h1 (by rw [← e, h.flip_flip x (hc x h2)])
      · rintro ⟨h2, h1, h3⟩
        refine ⟨⟨?_, h2⟩, h3⟩
        rintro rfl; exact h1 (h.flip_flip a haW)
    · simp only [hfa, decide_false, Bool.false_eq_true, if_false]
      rw [ih _ (fun x hx => ha x (by simp [hx])) hc hcons]
      congr 1
      ext x
      simp only [Finset.mem_filter, List.mem_cons, not_or]
      constructor
      · rintro ⟨h2, h3⟩
        refine ⟨h2, ?_, h3⟩
        intro e; exact hfa (by rw [← e, h.flip_flip x (hc x h2)]; exact h2)
      · rintro ⟨h2, _, h3⟩; exact ⟨h2, h3⟩

/-- What one iteration does, in closed form. -/
def pureStep (flip : α → α) (used : Finset α) (acc : List (Finset α)) (c : Finset α) :
    Except Err (List (Finset α)) :=
  if ∃ x ∈ c, flip x ∈ c then .ok acc
  else if ∃ x ∈ c, x ∈ used then .ok acc
  else if c.filter (fun x => flip x ∉ used) = ∅ then .error .valueError
  else .ok (acc ++ [c.filter (fun x => flip x ∉ used)])

theorem minimizeStep_eq {ops : LitOps α κ} {W : α → Prop} (h : OpsOK ops W)
    {ord : Finset α → List α} (ho : EnumOK ord) (used c : Finset α) (acc : List (Finset α))
    (hu : ∀ x ∈ used, W x) (hc : ∀ x ∈ c, W x) :
    minimizeStep ops ord used acc c = pureStep ops.flip used acc c := by
  unfold minimizeStep pureStep
  rw [checkCompl_ord h ho c hc]
  simp only [bind, Except.bind, decide_eq_true_eq]
  split
  · rfl
  · rename_i hcons
    have e : (ord used).any (· ∈ c) = true ↔ ∃ x ∈ c, x ∈ used := by
      simp only [List.any_eq_true, ho used, decide_eq_true_eq]
      exact ⟨fun ⟨x, a, b⟩ => ⟨x, b, a⟩, fun ⟨x, a, b⟩ => ⟨x, b, a⟩⟩
    simp only [e]
    split
    · rfl
    · rw [removeAssumptions_eq h ho _ _ (fun x hx => hu x ((ho used x).mp hx)) hc
        (by intro x hx hf; exact hcons ⟨x, hx, hf⟩)]
      simp only [ho used, Finset.card_eq_zero]

theorem mem_unionAll {l : List (Finset α)} {x : α} : x ∈ unionAll l ↔ ∃ c ∈ l, x ∈ c := by
  induction l with
  | nil => simp [unionAll]
  | cons c l ih =>
    show x ∈ c ∪ unionAll l ↔ _
    simp [ih]

/-- The whole function in closed form. -/
theorem minimizeCnf_eq {ops : LitOps α κ} {W : α → Prop} (h : OpsOK ops W)
    {ord : Finset α → List α} (ho : EnumOK ord) (clauses : List (Finset α)) (assumptions : Finset α)
    (hc : ∀ c ∈ clauses, ∀ x ∈ c, W x) (ha : ∀ x ∈ assumptions, W x) :
    minimizeCnf ops ord clauses assumptions =
      if ∃ x ∈ unionAll (keptUnits clauses assumptions), ops.flip x ∈ unionAll (keptUnits clauses assumptions)
      then .error .valueError
      else (clauses.filter fun c => 1 < c.card).foldlM
        (pureStep ops.flip (assumptions ∪ unionAll (keptUnits clauses assumptions)))
        (keptUnits clauses assumptions) := by
  have hkept : ∀ x ∈ unionAll (keptUnits clauses assumptions), W x := by
    intro x hx
    obtain ⟨c, hcm, hxc⟩ := mem_unionAll.mp hx
    exact hc c (List.mem_of_mem_filter hcm) x hxc
  unfold minimizeCnf
  dsimp only
  rw [checkCompl_ord h ho _ hkept]
  simp only [bind, Except.bind, decide_eq_true_eq]
  split
  · rfl
  · have hused : ∀ x ∈ assumptions ∪ unionAll (keptUnits clauses assumptions), W x := by
      intro x hx
      rcases Finset.mem_union.mp hx with hx | hx
      · exact ha x hx
      · exact hkept x hx
    have hcs : ∀ c ∈ clauses.filter (fun c => 1 < c.card), ∀ x ∈ c, W x :=
      fun c hcm => hc c (List.mem_of_mem_filter hcm)
    generalize clauses.filter (fun c => 1 < c.card) = cs at hcs
    generalize keptUnits clauses assumptions = acc at hused
    generalize assumptions ∪ unionAll acc = used at hused
    clear hkept ha hc
    induction cs generalizing acc with
    | nil => rfl
    | cons c cs ih =>
      simp only [List.foldlM_cons]
      rw [minimizeStep_eq h ho _ _ _ hused (hcs c (by simp))]
      cases pureStep ops.flip used acc c with
      | error e => rfl
      | ok v => exact ih (fun c hcm => hcs c (List.mem_cons_of_mem _ hcm)) v

/-- A valuation of the literals in `W` that respects flipping. -/
def Respects (ops : LitOps α κ) (W v : α → Prop) : Prop := ∀ x, W x → (v (ops.flip x) ↔ ¬ v x)

omit [DecidableEq κ] in
theorem pure_fold {ops : LitOps α κ} {W : α → Prop} (v : α → Prop)
    (hv : Respects ops W v) (used : Finset α) (huv : ∀ x ∈ used, v x)
    (cs acc : List (Finset α)) (hcs : ∀ c ∈ cs, ∀ x ∈ c, W x) :
    (∀ r, cs.foldlM (pureStep ops.flip used) acc = .ok r →
      ((∀ c ∈ r, ∃ x ∈ c, v x) ↔ (∀ c ∈ acc, ∃ x ∈ c, v x) ∧ ∀ c ∈ cs, ∃ x ∈ c, v x)) ∧
    (∀ e, cs.foldlM (pureStep ops.flip used) acc = .error e →
      e = .valueError ∧ ¬ ∀ c ∈ cs, ∃ x ∈ c, v x) := by
  induction cs generalizing acc with
  | nil =>
    constructor
    · intro r hr; simp only [List.foldlM_nil, pure, Except.pure, Except.ok.injEq] at hr; subst hr; simp
    · intro e he; simp [List.foldlM_nil, pure, Except.pure] at he
  | cons c cs ih =>
    have hcW := hcs c (by simp)
    have htail := fun acc => ih acc (fun c hc => hcs c (by simp [hc]))
    have hfil : (∃ x ∈ c, v x) ↔ ∃ x ∈ c.filter (fun x => ops.flip x ∉ used), v x := by
      constructor
      · rintro ⟨x, hx, hvx⟩
        refine ⟨x, Finset.mem_filter.mpr ⟨hx, fun hu => ?_⟩, hvx⟩
        exact (hv x (hcW x hx)).mp (huv _ hu) hvx
      · rintro ⟨x, hx, hvx⟩; exact ⟨x, (Finset.mem_filter.mp hx).1, hvx⟩
    have skip (ht : ∃ x ∈ c, v x) :
        ((∀ r, cs.foldlM (pureStep ops.flip used) acc = .ok r →
          ((∀ c ∈ r, ∃ x ∈ c, v x) ↔ (∀ c ∈ acc, ∃ x ∈ c, v x) ∧ ∀ c' ∈ c :: cs, ∃ x ∈ c', v x)) ∧
        (∀ e, cs.foldlM (pureStep ops.flip used) acc = .error e →
          e = .valueError ∧ ¬ ∀ c' ∈ c :: cs, ∃ x ∈ c', v x)) := by
      refine ⟨fun r hr => ?_, fun e he => ?_⟩
      · rw [(htail acc).1 r hr]; simp only [List.forall_mem_cons, ht, true_and]
      · obtain ⟨h1, h2⟩ := (htail acc).2 e he
        exact ⟨h1, fun hall => h2 fun c' hc' => hall c' (by simp [hc'])⟩
    simp only [List.foldlM_cons]
    unfold pureStep
    simp only [bind, Except.bind]
    by_cases h1 : ∃ x ∈ c, ops.flip x ∈ c
    · simp only [h1, if_true]
      obtain ⟨x, hx, hf⟩ := h1
      apply skip
      by_cases hvx : v x
      · exact ⟨x, hx, hvx⟩
      · exact ⟨_, hf, (hv x (hcW x hx)).mpr hvx⟩
    · simp only [h1, if_false]
      by_cases h2 : ∃ x ∈ c, x ∈ used
      · simp only [h2, if_true]
        obtain ⟨x, hx, hu⟩ := h2
        exact skip ⟨x, hx, huv x hu⟩
      · simp only [h2, if_false]
        by_cases h3 : c.filter (fun x => ops.flip x ∉ used) = ∅
        · simp only [h3, if_true]
          refine ⟨fun r hr => by simp at hr, fun e he => ?_⟩
          simp only [Except.error.injEq] at he
          refine ⟨he.symm, fun hall => ?_⟩
          obtain ⟨x, hx, _⟩ := hfil.mp (hall c (by simp))
          rw [h3] at hx; simp at hx
        · simp only [h3, if_false]
          refine ⟨fun r hr => ?_, fun e he => ?_⟩
          · rw [(htail _).1 r hr]
            simp only [List.forall_mem_append, List.forall_mem_cons, List.not_mem_nil, false_imp_iff,
              implies_true, and_true, hfil, and_assoc]
          · obtain ⟨h1, h2⟩ := (htail _).2 e he
            exact ⟨h1, fun hall => h2 fun c' hc' => hall c' (by simp [hc'])⟩

/-- Meaning of `minimize_cnf_clauses`. -/
theorem minimizeCnf_sound {ops : LitOps α κ} {W : α → Prop} (h : OpsOK ops W)
    {ord : Finset α → List α} (ho : EnumOK ord) (clauses : List (Finset α)) (assumptions : Finset α)
    (hc : ∀ c ∈ clauses, ∀ x ∈ c, W x) (ha : ∀ x ∈ assumptions, W x)
    (hne : ∀ c ∈ clauses, c ≠ ∅) (v : α → Prop) (hv : Respects ops W v) (hva : ∀ x ∈ assumptions, v x) :
    (∀ r, minimizeCnf ops ord clauses assumptions = .ok r →
      ((∀ c ∈ r, ∃ x ∈ c, v x) ↔ ∀ c ∈ clauses, ∃ x ∈ c, v x)) ∧
    (∀ e, minimizeCnf ops ord clauses assumptions = .error e →
      e = .valueError ∧ ¬ ∀ c ∈ clauses, ∃ x ∈ c, v x) := by
  rw [minimizeCnf_eq h ho _ _ hc ha]
  have hkeptc : ∀ c ∈ keptUnits clauses assumptions, ∃ y, c = {y} := by
    intro c hcm
    have := (List.mem_filter.mp hcm).2
    simp only [Bool.and_eq_true, decide_eq_true_eq] at this
    exact Finset.card_eq_one.mp this.1
  -- truth of the kept units
  have hunit : (∀ c ∈ keptUnits clauses assumptions, ∃ x ∈ c, v x) →
      ∀ x ∈ unionAll (keptUnits clauses assumptions), v x := by
    intro hall x hx
    obtain ⟨c, hcm, hxc⟩ := mem_unionAll.mp hx
    obtain ⟨y, rfl⟩ := hkeptc c hcm
    obtain ⟨z, hz, hvz⟩ := hall _ hcm
    simp only [Finset.mem_singleton] at hxc hz
    rw [hxc, ← hz]; exact hvz
  have hsplit : (∀ c ∈ clauses, ∃ x ∈ c, v x) ↔
      (∀ c ∈ keptUnits clauses assumptions, ∃ x ∈ c, v x) ∧
        ∀ c ∈ clauses.filter (fun c => 1 < c.card), ∃ x ∈ c, v x := by
    constructor
    · intro hall
      exact ⟨fun c hcm => hall c (List.mem_of_mem_filter hcm), fun c hcm => hall c (List.mem_of_mem_filter hcm)⟩
    · rintro ⟨h1, h2⟩ c hcm
      by_cases hcard : 1 < c.card
      · exact h2 c (List.mem_filter.mpr ⟨hcm, by simpa using hcard⟩)
      · have hpos := Finset.card_pos.mpr (Finset.nonempty_iff_ne_empty.mpr (hne c hcm))
        have h1c : c.card = 1 := by omega
        by_cases hi : c ∩ assumptions = ∅
        · exact h1 c (List.mem_filter.mpr ⟨hcm, by simp [h1c, hi]⟩)
        · obtain ⟨x, hx⟩ := Finset.nonempty_iff_ne_empty.mpr hi
          exact ⟨x, (Finset.mem_inter.mp hx).1, hva x (Finset.mem_inter.mp hx).2⟩
  have hkW : ∀ x ∈ unionAll (keptUnits clauses assumptions), W x := by
    intro x hx
    obtain ⟨c, hcm, hxc⟩ := mem_unionAll.mp hx
    exact hc c (List.mem_of_mem_filter hcm) x hxc
  split
  · rename_i hcon
    refine ⟨fun r hr => by simp at hr, fun e he => ?_⟩
    simp only [Except.error.injEq] at he
    refine ⟨he.symm, fun hall => ?_⟩
    obtain ⟨x, hx, hf⟩ := hcon
    have hk := hunit (hsplit.mp hall).1
    exact (hv x (hkW x hx)).mp (hk _ hf) (hk x hx)
  · by_cases hk : ∀ c ∈ keptUnits clauses assumptions, ∃ x ∈ c, v x
    · have hu := hunit hk
      have hf := pure_fold v hv (assumptions ∪ unionAll (keptUnits clauses assumptions))
        (by intro x hx; rcases Finset.mem_union.mp hx with hx | hx
            · exact hva x hx
            · exact hu x hx)
        (clauses.filter (fun c => 1 < c.card)) (keptUnits clauses assumptions)
        (fun c hcm => hc c (List.mem_of_mem_filter hcm))
      refine ⟨fun r hr => ?_, fun e he => ?_⟩
      · rw [hf.1 r hr, hsplit]
      · obtain ⟨h1, h2⟩ := hf.2 e he
        exact ⟨h1, fun hall => h2 (hsplit.mp hall).2⟩
    · -- some kept unit is false: the clauses are false, and so is the result
      have hfalse : ¬ ∀ c ∈ clauses, ∃ x ∈ c, v x := fun hall => hk (hsplit.mp hall).1
      have hmono : ∀ (cs acc : List (Finset α)),
          (∀ r, cs.foldlM (pureStep ops.flip (assumptions ∪ unionAll (keptUnits clauses assumptions))) acc
            = .ok r → acc <+: r) ∧
          (∀ e, cs.foldlM (pureStep ops.flip (assumptions ∪ unionAll (keptUnits clauses assumptions))) acc
            = .error e → e = .valueError) := by
        intro cs
        induction cs with
        | nil => intro acc; simp [pure, Except.pure]
        | cons c cs ih =>
          intro acc
          simp only [List.foldlM_cons]
          unfold pureStep
          simp only [bind, Except.bind]
          split
          · rename_i e he
            refine ⟨fun r hr => by simp at hr, fun e' he' => ?_⟩
            simp only [Except.error.injEq] at he'; subst he'
            split at he
            · simp at he
            · split at he
              · simp at he
              · split at he
                · simp only [Except.error.injEq] at he; exact he.symm
                · simp at he
          · rename_i r hr
            refine ⟨fun r' hr' => ?_, (ih _).2⟩
            have := (ih _).1 r' hr'
            split at hr
            · simp only [Except.ok.injEq] at hr; subst hr; exact this
            · split at hr
              · simp only [Except.ok.injEq] at hr; subst hr; exact this
              · split at hr
                · simp at hr
                · simp only [Except.ok.injEq] at hr; subst hr
                  exact (List.prefix_append _ _).trans this
      refine ⟨fun r hr => ?_, fun e he => ⟨(hmono _ _).2 e he, hfalse⟩⟩
      have hp := (hmono _ _).1 r hr
      exact ⟨fun hall => absurd (fun c hcm => hall c (hp.subset hcm)) hk, fun hall => absurd hall hfalse⟩

/-! ### `create_cnf_combination` -/

/-- An enumeration without repetitions, as iterating over a Python set gives. -/
structure EnumNodup (ord : Finset α → List α) : Prop where
  mem : ∀ s x, x ∈ ord s ↔ x ∈ s
  nodup : ∀ s, (ord s).Nodup

theorem mem_createCnf {ord : Finset α → List α} (ho : EnumNodup ord) {lits : Finset α} {n : Nat}
    {c : Finset α} : c ∈ createCnf ord lits n ↔ c ⊆ lits ∧ c ≠ ∅ ∧ c.card ≤ n := by
  unfold createCnf
  simp only [List.mem_flatMap, List.mem_range'_1, List.mem_map]
  constructor
  · rintro ⟨k, hk, l, hl, rfl⟩
    obtain ⟨h1, h2⟩ := Py.mem_combs.mp hl
    have hnd := h2.nodup (ho.nodup lits)
    have hcard : l.toFinset.card = k := by rw [List.toFinset_card_of_nodup hnd, h1]
    refine ⟨fun x hx => (ho.mem lits x).mp (h2.subset (List.mem_toFinset.mp hx)), ?_, by omega⟩
    intro he; rw [he] at hcard; simp at hcard; omega
  · rintro ⟨hs, hne, hcard⟩
    refine ⟨c.card, ⟨Finset.card_pos.mpr (Finset.nonempty_iff_ne_empty.mpr hne), by omega⟩,
      (ord lits).filter (· ∈ c), ?_, ?_⟩
    · rw [Py.mem_combs]
      refine ⟨?_, List.filter_sublist⟩
      rw [← List.toFinset_card_of_nodup ((ho.nodup lits).filter _)]
      congr 1
      ext x; simp only [List.mem_toFinset, List.mem_filter, ho.mem, decide_eq_true_eq]
      exact ⟨fun h => h.2, fun h => ⟨hs h, h⟩⟩
    · ext x; simp only [List.mem_toFinset, List.mem_filter, ho.mem, decide_eq_true_eq]
      exact ⟨fun h => h.2, fun h => ⟨hs h, h⟩⟩

omit [DecidableEq α] in
theorem combs_nodup {l : List α} (h : l.Nodup) (k : Nat) : (Py.combs k l).Nodup := by
  induction l generalizing k with
  | nil => cases k <;> simp [Py.combs]
  | cons x l ih =>
    cases k with
    | zero => simp [Py.combs]
    | succ k =>
      have hx := (List.nodup_cons.mp h)
      rw [Py.combs, List.nodup_append]
      refine ⟨(ih hx.2 k).map (List.cons_injective), ih hx.2 _, ?_⟩
      intro a ha b hb e
      obtain ⟨a', _, rfl⟩ := List.mem_map.mp ha
      subst e
      exact hx.1 ((Py.mem_combs.mp hb).2.subset (by simp))

theorem sublist_ext {l a b : List α} (h : l.Nodup) (ha : a.Sublist l) (hb : b.Sublist l)
    (he : a.toFinset = b.toFinset) : a = b := by
  have hmem : ∀ x, x ∈ a ↔ x ∈ b := fun x => by
    rw [← List.mem_toFinset, ← List.mem_toFinset, he]
  induction l generalizing a b with
  | nil => rw [List.sublist_nil.mp ha, List.sublist_nil.mp hb]
  | cons x l ih =>
    have hx := List.nodup_cons.mp h
    cases ha with
    | cons _ ha =>
      cases hb with
      | cons _ hb => exact ih hx.2 ha hb he hmem
      | cons_cons _ hb => exact absurd (ha.subset ((hmem x).mpr (by simp))) hx.1
    | cons_cons _ ha =>
      rename_i a'
      cases hb with
      | cons _ hb => exact absurd (hb.subset ((hmem x).mp (by simp))) hx.1
      | cons_cons _ hb =>
        rename_i b'
        have hm' : ∀ y, y ∈ a' ↔ y ∈ b' := by
          intro y
          constructor
          · intro hy
            rcases List.mem_cons.mp ((hmem y).mp (List.mem_cons_of_mem _ hy)) with rfl | h
            · exact absurd (ha.subset hy) hx.1
            · exact h
          · intro hy
            rcases List.mem_cons.mp ((hmem y).mpr (List.mem_cons_of_mem _ hy)) with rfl | h
            · exact absurd (hb.subset hy) hx.1
            · exact h
        rw [ih hx.2 ha hb (by ext y; simp [hm']) hm']

/-- Every subset occurs once. -/
theorem createCnf_nodup {ord : Finset α → List α} (ho : EnumNodup ord) (lits : Finset α) (n : Nat) :
    (createCnf ord lits n).Nodup := by
  unfold createCnf
  rw [List.nodup_flatMap]
  constructor
  · intro k _
    apply List.Nodup.map_on _ (combs_nodup (ho.nodup lits) k)
    intro a ha b hb e
    exact sublist_ext (ho.nodup lits) (Py.mem_combs.mp ha).2 (Py.mem_combs.mp hb).2 e
  · have : (List.range' 1 n).Pairwise (· ≠ ·) := List.nodup_range'
    refine this.imp ?_
    intro i j hij
    simp only [Function.onFun]
    rw [List.disjoint_left]
    intro c hc hc'
    obtain ⟨a, ha, rfl⟩ := List.mem_map.mp hc
    obtain ⟨b, hb, e⟩ := List.mem_map.mp hc'
    have h1 := List.toFinset_card_of_nodup ((Py.mem_combs.mp ha).2.nodup (ho.nodup lits))
    have h2 := List.toFinset_card_of_nodup ((Py.mem_combs.mp hb).2.nodup (ho.nodup lits))
    rw [e, h1, (Py.mem_combs.mp ha).1, (Py.mem_combs.mp hb).1] at h2
    exact hij h2

/-- Executable enumeration of sets: the elements of a given universe in its order. -/
noncomputable def enumOf (U : List α) (s : Finset α) : List α :=
  if s ⊆ U.toFinset then U.filter (fun l => l ∈ s) else s.toList

theorem enumOf_ok (U : List α) : EnumOK (enumOf U) := by
  intro s l
  unfold enumOf
  split
  · rename_i h
    simp only [List.mem_filter, decide_eq_true_eq, and_iff_right_iff_imp]
    intro hl; exact List.mem_toFinset.mp (h hl)
  · exact Finset.mem_toList

theorem enumOf_nodup {U : List α} (hU : U.Nodup) : EnumNodup (enumOf U) where
  mem := enumOf_ok U
  nodup s := by
    unfold enumOf
    split
    · exact hU.filter _
    · exact s.nodup_toList

end Model
